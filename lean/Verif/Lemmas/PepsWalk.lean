import Verif.Props.PepsRecombine

/-!
# A PEPS as a product of rows, and the merging of consecutive rows
-/

namespace Xmps.FPEPS

open Finset Spec

/-! ## Walks -/

section
variable {α : Type}

/-- sum over all walks from `x`: kernels with the sets their second argument runs over -/
def walk : List ((α → α → ℂ) × Finset α) → α → ℂ
  | [], _ => 1
  | (R, S) :: l, x => ∑ z ∈ S, R x z * walk l z

/-- the kernel of several steps -/
def kern : List ((α → α → ℂ) × Finset α) → α → α → ℂ
  | [], _, _ => 0
  | [(R, _)], x, z => R x z
  | (R, S) :: r :: l, x, z => ∑ w ∈ S, R x w * kern (r :: l) w z

/-- the set of the last step -/
def endSet : List ((α → α → ℂ) × Finset α) → Finset α
  | [] => ∅
  | [(_, S)] => S
  | _ :: r :: l => endSet (r :: l)

theorem walk_append : ∀ (b l : List ((α → α → ℂ) × Finset α)), b ≠ [] → ∀ x,
    walk (b ++ l) x = ∑ z ∈ endSet b, kern b x z * walk l z
  | [], _, h, _ => absurd rfl h
  | [(_, _)], _, _, _ => rfl
  | (R, S) :: r :: b, l, _, x => by
    have ih := walk_append (r :: b) l (by simp)
    show ∑ z ∈ S, R x z * walk ((r :: b) ++ l) z = ∑ z ∈ endSet (r :: b), (∑ w ∈ S, R x w * kern (r :: b) w z) * walk l z
    rw [sum_congr rfl fun z _ => by rw [ih, mul_sum], sum_comm]
    refine sum_congr rfl fun z _ => ?_
    rw [sum_mul]
    exact sum_congr rfl fun w _ => (mul_assoc _ _ _).symm

theorem walk_merge : ∀ (p b l : List ((α → α → ℂ) × Finset α)), b ≠ [] →
    walk (p ++ b ++ l) = walk (p ++ [(kern b, endSet b)] ++ l)
  | [], b, l, h => funext fun x => by
    rw [List.nil_append, List.nil_append, walk_append b l h, walk_append _ l (by simp)]
    rfl
  | (R, S) :: p, b, l, h => funext fun x => by
    show ∑ z ∈ S, R x z * walk (p ++ b ++ l) z = ∑ z ∈ S, R x z * walk (p ++ [(kern b, endSet b)] ++ l) z
    rw [walk_merge p b l h]

theorem endSet_ofFn : ∀ {n : ℕ} (f : Fin (n + 1) → (α → α → ℂ) × Finset α), endSet (List.ofFn f) = (f (Fin.last n)).2
  | 0, f => by simp [endSet]
  | n + 1, f => by
    have ih := endSet_ofFn fun i : Fin (n + 1) => f i.succ
    rw [List.ofFn_succ] at ih ⊢
    rw [List.ofFn_succ]
    exact ih

theorem walk_path : ∀ {m : ℕ} (R : Fin m → α → α → ℂ) (S : Fin (m + 1) → Finset α),
    ∑ v ∈ Fintype.piFinset S, ∏ j, R j (v j.castSucc) (v j.succ) = ∑ u ∈ S 0, walk (List.ofFn fun j : Fin m => (R j, S j.succ)) u
  | 0, R, S => by
    rw [sum_piFinset_cons]
    refine sum_congr rfl fun a _ => ?_
    have hz : (Fintype.piFinset fun i : Fin 0 => S i.succ) = {Fin.elim0} := by
      ext v
      simp only [Fintype.mem_piFinset, mem_singleton]
      exact ⟨fun _ => Subsingleton.elim _ _, fun _ i => i.elim0⟩
    rw [hz, sum_singleton]
    simp [walk]
  | m + 1, R, S => by
    have ih := walk_path (fun j : Fin m => R j.succ)
    rw [sum_piFinset_cons]
    refine sum_congr rfl fun a _ => ?_
    rw [List.ofFn_succ]
    show _ = ∑ z ∈ S (Fin.succ 0), R 0 a z * walk (List.ofFn fun j : Fin m => (R j.succ, S j.succ.succ)) z
    rw [sum_piFinset_cons]
    refine sum_congr rfl fun z hz => ?_
    have ih' := ih (Fin.cons {z} fun j : Fin m => S j.succ.succ)
    simp only [Fin.cons_zero, sum_singleton, Fin.cons_succ] at ih'
    rw [← ih', mul_sum, sum_piFinset_cons]
    simp only [Fin.cons_zero, sum_singleton, Fin.cons_succ]
    refine sum_congr rfl fun v _ => ?_
    rw [Fin.prod_univ_succ]
    refine congrArg₂ (· * ·) ?_ (prod_congr rfl fun j _ => ?_)
    · rfl
    · rw [← Fin.succ_castSucc, Fin.cons_succ, Fin.cons_succ]

theorem kern_path [DecidableEq α] : ∀ {m : ℕ} (R : Fin (m + 1) → α → α → ℂ) (S : Fin (m + 2) → Finset α) (x z : α), x ∈ S 0 → z ∈ S (Fin.last _) →
    kern (List.ofFn fun j : Fin (m + 1) => (R j, S j.succ)) x z =
      ∑ v ∈ Fintype.piFinset S, if v 0 = x ∧ v (Fin.last _) = z then ∏ j, R j (v j.castSucc) (v j.succ) else 0
  | 0, R, S, x, z, hx, hz => by
    have hz' : z ∈ S (Fin.succ 0) := hz
    rw [sum_piFinset_cons, sum_eq_single_of_mem x hx, sum_piFinset_cons, sum_eq_single_of_mem z hz']
    · have he : (Fintype.piFinset fun i : Fin 0 => S i.succ.succ) = {Fin.elim0} := by
        ext v
        simp only [Fintype.mem_piFinset, mem_singleton]
        exact ⟨fun _ => Subsingleton.elim _ _, fun _ i => i.elim0⟩
      rw [he, sum_singleton]
      have h1 : (Fin.cons x (Fin.cons z Fin.elim0 : Fin 1 → α) : Fin 2 → α) (Fin.last 1) = z := rfl
      rw [if_pos ⟨rfl, h1⟩]
      simp [kern]
    · intro c _ hc
      exact sum_eq_zero fun v _ => if_neg fun hh => hc hh.2
    · intro c _ hc
      exact sum_eq_zero fun v _ => if_neg fun hh => hc hh.1
  | m + 1, R, S, x, z, hx, hz => by
    rw [sum_piFinset_cons, sum_eq_single_of_mem x hx]
    · have ih := fun w (hw : w ∈ S (Fin.succ 0)) => kern_path (fun j : Fin (m + 1) => R j.succ) (fun j : Fin (m + 2) => S j.succ) w z hw hz
      rw [List.ofFn_succ, List.ofFn_succ]
      rw [List.ofFn_succ] at ih
      show ∑ w ∈ S (Fin.succ 0), R 0 x w * kern (_ :: _) w z = _
      rw [sum_congr rfl fun w hw => by rw [ih w hw, mul_sum], sum_comm]
      refine sum_congr rfl fun v hv => ?_
      rw [sum_eq_single_of_mem (v 0) (Fintype.mem_piFinset.1 hv 0)]
      · have e1 : (Fin.cons x v : Fin (m + 3) → α) (Fin.last (m + 2)) = v (Fin.last (m + 1)) := by
          rw [← Fin.succ_last, Fin.cons_succ]
        have e2 : ∀ t : Fin (m + 1), (Fin.cons x v : Fin (m + 3) → α) t.succ.castSucc = v t.castSucc := fun t => by
          rw [← Fin.succ_castSucc, Fin.cons_succ]
        simp only [Fin.cons_zero, true_and, e1]
        split_ifs with hh
        · rw [Fin.prod_univ_succ (n := m + 1)]
          simp only [Fin.cons_succ, e2]
          rfl
        · rw [mul_zero]
      · intro c _ hc
        rw [if_neg fun hh => hc hh.1.symm, mul_zero]
    · intro c _ hc
      exact sum_eq_zero fun v _ => if_neg fun hh => hc hh.1

theorem kern_left {l : List ((α → α → ℂ) × Finset α)} {R : α → α → ℂ} {S : Finset α} {x : α} (h : ∀ w, R x w = 0) (z : α) :
    kern ((R, S) :: l) x z = 0 := by
  cases l with
  | nil => exact h z
  | cons r l => exact sum_eq_zero fun w _ => by rw [h, zero_mul]

theorem kern_right : ∀ {m : ℕ} (f : Fin (m + 1) → (α → α → ℂ) × Finset α) {z : α} (_ : ∀ w, (f (Fin.last m)).1 w z = 0) (x : α),
    kern (List.ofFn f) x z = 0
  | 0, f, z, h, x => by
    simpa [kern] using h x
  | m + 1, f, z, h, x => by
    have ih := kern_right (fun j : Fin (m + 1) => f j.succ) (z := z) h
    rw [List.ofFn_succ] at ih ⊢
    rw [List.ofFn_succ]
    exact sum_eq_zero fun w _ => by rw [ih, mul_zero]

end

/-! ## Rows -/

/-- the values of the bonds of one line -/
def lineVals {n : ℕ} (e : Fin n → ℕ) : Finset (Fin n → ℕ) := Fintype.piFinset fun i => range (e i)

theorem mem_lineVals {n : ℕ} {e v : Fin n → ℕ} : v ∈ lineVals e ↔ ∀ i, v i < e i := by simp [lineVals]

/-- one row as a kernel between the bonds above and below, zero outside the extents -/
noncomputable def rowKern {n : ℕ} (u d : Fin n → ℕ) (h : Fin (n + 1) → ℕ) (g : Fin n → ND ℂ) (s : Fin n → ℕ) (v w : Fin n → ℕ) : ℂ :=
  if v ∈ lineVals u ∧ w ∈ lineVals d then ∑ k ∈ lineVals h, ∏ i, (g i).val [s i, v i, k i.succ, w i, k i.castSucc] else 0

/-- the amplitude as a walk through the rows -/
theorem pepsAmp_walk {m n : ℕ} (vE : Fin (m + 1) → Fin n → ℕ) (hE : Fin m → Fin (n + 1) → ℕ) (g : Fin m → Fin n → ND ℂ) (s : Fin m → Fin n → ℕ) :
    pepsAmp vE hE g s = ∑ u ∈ lineVals (vE 0), walk (List.ofFn fun j : Fin m =>
      (rowKern (vE j.castSucc) (vE j.succ) (hE j) (g j) (s j), lineVals (vE j.succ))) u := by
  rw [← walk_path (fun j : Fin m => rowKern (vE j.castSucc) (vE j.succ) (hE j) (g j) (s j)) fun j => lineVals (vE j)]
  unfold pepsAmp
  refine sum_congr rfl fun v hv => ?_
  have hv' := Fintype.mem_piFinset.1 hv
  have : ∀ j : Fin m, rowKern (vE j.castSucc) (vE j.succ) (hE j) (g j) (s j) (v j.castSucc) (v j.succ) = _ := fun j =>
    if_pos ⟨hv' j.castSucc, hv' j.succ⟩
  rw [prod_congr rfl fun j _ => this j]
  exact (Finset.prod_univ_sum (fun j => lineVals (hE j)) fun j k => ∏ i, (g j i).val [s j i, v j.castSucc i, k i.succ, v j.succ i, k i.castSucc]).symm

/-- The rows of a block, joined column by column, act as the product of the rows. -/
theorem rowKern_merged {c n : ℕ} {ph : Fin (c + 1) → Fin n → ℕ} {vE : Fin (c + 2) → Fin n → ℕ} {hE : Fin (c + 1) → Fin (n + 1) → ℕ}
    {g : Fin (c + 1) → Fin n → ND ℂ} (hg : PepsGrid ph vE hE g) :
    ∃ C : Fin n → ND ℂ, (∀ i, reduceM colJoin (List.ofFn fun j => g j i) = .ok (C i)) ∧
      (∀ i, (C i).shape = [∏ j, ph j i, vE 0 i, ∏ j, hE j i.succ, vE (Fin.last _) i, ∏ j, hE j i.castSucc]) ∧
      ∀ s ∈ bondVals ph, rowKern (vE 0) (vE (Fin.last _)) (fun i => ∏ j, hE j i) C (fun i => rv (fun j => ph j i) fun j => s j i) =
        kern (List.ofFn fun j : Fin (c + 1) => (rowKern (vE j.castSucc) (vE j.succ) (hE j) (g j) (s j), lineVals (vE j.succ))) := by
  choose C c1 c2 c3 using fun i => joins_reduce colJoin_joins (fun j => g j i) (fun j => ph j i) (fun j => hE j i.succ) (fun j => hE j i.castSucc)
    (fun j => vE j i) fun j => hg j i
  refine ⟨C, c1, c2, ?_⟩
  intro s hs
  rw [mem_bondVals] at hs
  funext x z
  by_cases hx : x ∈ lineVals (vE 0)
  · by_cases hz : z ∈ lineVals (vE (Fin.last _))
    · rw [kern_path (fun j : Fin (c + 1) => rowKern (vE j.castSucc) (vE j.succ) (hE j) (g j) (s j)) (fun j => lineVals (vE j)) x z hx hz]
      have hk : ∀ v ∈ Fintype.piFinset fun j => lineVals (vE j), ∏ j : Fin (c + 1), rowKern (vE j.castSucc) (vE j.succ) (hE j) (g j) (s j)
          (v j.castSucc) (v j.succ) = ∑ h ∈ bondVals hE, ∏ j, ∏ i, (g j i).val [s j i, v j.castSucc i, h j i.succ, v j.succ i, h j i.castSucc] := by
        intro v hv
        have hv' := Fintype.mem_piFinset.1 hv
        have : ∀ j : Fin (c + 1), rowKern (vE j.castSucc) (vE j.succ) (hE j) (g j) (s j) (v j.castSucc) (v j.succ) = _ := fun j =>
          if_pos ⟨hv' j.castSucc, hv' j.succ⟩
        rw [prod_congr rfl fun j _ => this j]
        exact Finset.prod_univ_sum (fun j => lineVals (hE j)) fun j k => ∏ i, (g j i).val [s j i, v j.castSucc i, k i.succ, v j.succ i, k i.castSucc]
      rw [sum_congr rfl fun v hv => by rw [hk v hv]]
      unfold rowKern
      rw [if_pos ⟨hx, hz⟩]
      rw [mem_lineVals] at hx hz
      unfold lineVals
      rw [sum_merged (fun i j => hE j i)]
      have hL : ∀ h ∈ bondVals (fun i j => hE j i), ∏ i, (C i).val [rv (fun j => ph j i) fun j => s j i, x i, rv (fun j => hE j i.succ) (h i.succ),
            z i, rv (fun j => hE j i.castSucc) (h i.castSucc)] =
          ∑ V ∈ bondVals (fun i j => vE j i), if (∀ i, V i 0 = x i ∧ V i (Fin.last _) = z i) then
            ∏ i, ∏ j : Fin (c + 1), (g j i).val [s j i, V i j.castSucc, h i.succ j, V i j.succ, h i.castSucc j] else 0 := by
        intro h hh
        rw [mem_bondVals] at hh
        refine (prod_congr rfl fun i _ => c3 i (fun j => s j i) (h i.succ) (h i.castSucc) (fun j => hs j i) (hh i.succ) (hh i.castSucc)
          (x i) (hx i) (z i) (hz i)).trans ?_
        rw [Finset.prod_univ_sum]
        refine sum_congr rfl fun V _ => ?_
        rw [Finset.prod_ite_zero]
        simp only [mem_univ, true_imp_iff]
        rfl
      rw [sum_congr rfl hL, sum_bondVals hE (fun i j => hE j i) (fun h i j => h j i) (fun h j i => h i j) (fun _ => rfl) (fun _ => rfl)
        (fun h => by simp only [mem_bondVals]; exact forall_comm)]
      rw [sum_congr rfl fun h _ => sum_bondVals vE (fun i j => vE j i) (fun v i j => v j i) (fun v j i => v i j) (fun _ => rfl) (fun _ => rfl)
        (fun v => by simp only [mem_bondVals]; exact forall_comm) _, sum_comm]
      refine sum_congr rfl fun v _ => ?_
      by_cases hv : v 0 = x ∧ v (Fin.last _) = z
      · rw [if_pos hv]
        refine sum_congr rfl fun h _ => ?_
        rw [if_pos fun i => ⟨congrFun hv.1 i, congrFun hv.2 i⟩, prod_comm]
      · rw [if_neg hv]
        refine sum_eq_zero fun h _ => if_neg fun hh => hv ⟨funext fun i => (hh i).1, funext fun i => (hh i).2⟩
    · rw [kern_right _ fun w => if_neg fun hh => hz hh.2]
      exact if_neg fun hh => hz hh.2
  · rw [List.ofFn_succ, kern_left fun w => if_neg fun hh => hx hh.1]
    exact if_neg fun hh => hx hh.1

/-! ## Merging rows of a grid -/

section
variable {a b c n : ℕ}

/-- the rows `a, …, a + c` of a list are replaced by one -/
def mergeAt {β : Type} (f : Fin (a + (c + 1) + b) → β) (M : β) (j : Fin (a + 1 + b)) : β :=
  if h : (j : ℕ) < a then f ⟨j, by omega⟩ else if (j : ℕ) = a then M else f ⟨j + c, by omega⟩

/-- the rows `a, …, a + c` -/
def blockOf {β : Type} (f : Fin (a + (c + 1) + b) → β) (l : Fin (c + 1)) : β := f ⟨a + l, by omega⟩

/-- the levels between the rows -/
def levels {β : Type} (f : Fin (a + (c + 1) + b + 1) → β) (j : Fin (a + 1 + b + 1)) : β :=
  if h : (j : ℕ) ≤ a then f ⟨j, by omega⟩ else f ⟨j + c, by omega⟩

theorem ofFn_mergeAt {β : Type} (f : Fin (a + (c + 1) + b) → β) (M : β) :
    List.ofFn (mergeAt f M) = (List.ofFn f).take a ++ [M] ++ (List.ofFn f).drop (a + (c + 1)) := by
  refine List.ext_getElem ?_ fun k h1 h2 => ?_
  · simp only [List.length_ofFn, List.length_append, List.length_take, List.length_cons, List.length_nil, List.length_drop]
    omega
  · rw [List.getElem_ofFn]
    have hk : k < a + 1 + b := by simpa using h1
    have hl : (List.take a (List.ofFn f)).length = a := by
      rw [List.length_take, List.length_ofFn]
      omega
    unfold mergeAt
    simp only
    split_ifs with h3 h4
    · rw [List.getElem_append_left (by simp only [List.length_append, hl, List.length_cons, List.length_nil]; omega),
        List.getElem_append_left (by omega), List.getElem_take, List.getElem_ofFn]
    · rw [List.getElem_append_left (by simp only [List.length_append, hl, List.length_cons, List.length_nil]; omega),
        List.getElem_append_right (by omega)]
      simp
    · rw [List.getElem_append_right (by simp only [List.length_append, hl, List.length_cons, List.length_nil]; omega), List.getElem_drop,
        List.getElem_ofFn]
      congr 2
      simp only [List.length_append, hl, List.length_cons, List.length_nil]
      omega

theorem ofFn_blockOf {β : Type} (f : Fin (a + (c + 1) + b) → β) :
    ((List.ofFn f).take (a + (c + 1))).drop a = List.ofFn (blockOf f) := by
  refine List.ext_getElem ?_ fun k h1 h2 => ?_
  · simp only [List.length_ofFn, List.length_take, List.length_drop]
    omega
  · rw [List.getElem_drop, List.getElem_take, List.getElem_ofFn, List.getElem_ofFn]
    rfl

theorem ofFn_parts {β : Type} (f : Fin (a + (c + 1) + b) → β) :
    List.ofFn f = (List.ofFn f).take a ++ List.ofFn (blockOf f) ++ (List.ofFn f).drop (a + (c + 1)) := by
  rw [← ofFn_blockOf]
  have h1 : List.take a (List.ofFn f) ++ List.drop a (List.take (a + (c + 1)) (List.ofFn f)) = List.take (a + (c + 1)) (List.ofFn f) := by
    have := List.take_append_drop a (List.take (a + (c + 1)) (List.ofFn f))
    rwa [List.take_take, min_eq_left (by omega)] at this
  rw [h1, List.take_append_drop]

variable {ph : Fin (a + (c + 1) + b) → Fin n → ℕ} {vE : Fin (a + (c + 1) + b + 1) → Fin n → ℕ} {hE : Fin (a + (c + 1) + b) → Fin (n + 1) → ℕ}
  {g : Fin (a + (c + 1) + b) → Fin n → ND ℂ}

/-- extents of the merged row -/
def mergedPh (ph : Fin (a + (c + 1) + b) → Fin n → ℕ) : Fin (a + 1 + b) → Fin n → ℕ := mergeAt ph fun i => ∏ l, blockOf ph l i

/-- a basis state of the merged grid -/
def mergedS (ph s : Fin (a + (c + 1) + b) → Fin n → ℕ) : Fin (a + 1 + b) → Fin n → ℕ :=
  mergeAt s fun i => rv (fun l => blockOf ph l i) fun l => blockOf s l i

def mergedH (hE : Fin (a + (c + 1) + b) → Fin (n + 1) → ℕ) : Fin (a + 1 + b) → Fin (n + 1) → ℕ := mergeAt hE fun i => ∏ l, blockOf hE l i

/-- Consecutive rows of a grid are joined column by column: the state stays the same. -/
theorem merge_rows (hg : PepsGrid ph vE hE g) :
    ∃ C : Fin n → ND ℂ, (∀ i, reduceM colJoin (List.ofFn fun l => blockOf g l i) = .ok (C i)) ∧
      PepsGrid (mergedPh ph) (levels vE) (mergedH hE) (mergeAt g C) ∧
      ∀ s ∈ bondVals ph, pepsAmp (levels vE) (mergedH hE) (mergeAt g C) (mergedS ph s) = pepsAmp vE hE g s := by
  have hb : PepsGrid (blockOf ph) (fun l : Fin (c + 2) => vE ⟨a + l, by omega⟩) (blockOf hE) (blockOf g) := fun l i => hg ⟨a + l, by omega⟩ i
  obtain ⟨C, c1, c2, c3⟩ := rowKern_merged hb
  refine ⟨C, c1, ?_, ?_⟩
  · intro j i
    unfold mergedPh mergedH mergeAt levels
    simp only [Fin.val_castSucc, Fin.val_succ]
    rcases lt_trichotomy (j : ℕ) a with h | h | h
    · simp only [h, dif_pos, dif_pos h.le, dif_pos (show (j : ℕ) + 1 ≤ a from h)]
      exact hg ⟨j, by omega⟩ i
    · have h1 : ¬ (j : ℕ) < a := by omega
      have h2 : ¬ (j : ℕ) + 1 ≤ a := by omega
      simp only [dif_neg, h, if_pos, dif_pos le_rfl, not_false_eq_true, lt_irrefl]
      rw [c2 i]
      simp only [Fin.val_zero, Fin.val_last, add_zero, dif_neg (show ¬ a + 1 ≤ a by omega), show a + 1 + c = a + (c + 1) by omega]
    · have h1 : ¬ (j : ℕ) < a := by omega
      have h2 : ¬ (j : ℕ) + 1 ≤ a := by omega
      have h3 : ¬ (j : ℕ) = a := by omega
      have h4 : ¬ (j : ℕ) ≤ a := by omega
      simp only [dif_neg h1, dif_neg h2, if_neg h3, dif_neg h4]
      have := hg ⟨(j : ℕ) + c, by omega⟩ i
      simp only [Fin.castSucc_mk, Fin.succ_mk] at this
      rw [this]
      simp only [show (j : ℕ) + 1 + c = j + c + 1 by omega]
  · intro s hs
    have hs' : blockOf s ∈ bondVals (blockOf ph) := by
      rw [mem_bondVals] at hs ⊢
      exact fun l i => hs _ i
    rw [pepsAmp_walk, pepsAmp_walk]
    have h0 : levels vE 0 = vE 0 := by
      unfold levels
      rw [dif_pos (by simp)]
      rfl
    have hL : (fun j : Fin (a + 1 + b) => (rowKern (levels vE j.castSucc) (levels vE j.succ) (mergedH hE j) (mergeAt g C j) (mergedS ph s j),
        lineVals (levels vE j.succ))) = mergeAt (fun j : Fin (a + (c + 1) + b) => (rowKern (vE j.castSucc) (vE j.succ) (hE j) (g j) (s j), lineVals (vE j.succ)))
          (kern (List.ofFn fun j : Fin (c + 1) => (rowKern (vE ⟨a + j.castSucc, by omega⟩) (vE ⟨a + j.succ, by omega⟩) (blockOf hE j) (blockOf g j) (blockOf s j), lineVals (vE ⟨a + j.succ, by omega⟩))),
            lineVals (vE ⟨a + (c + 1), by omega⟩)) := by
      funext j
      unfold mergedH mergedS mergeAt levels
      simp only [Fin.val_castSucc, Fin.val_succ]
      rcases lt_trichotomy (j : ℕ) a with h | h | h
      · simp only [dif_pos h, dif_pos h.le, dif_pos (show (j : ℕ) + 1 ≤ a from h)]
        rfl
      · have h1 : ¬ (j : ℕ) < a := by omega
        have h2 : ¬ (j : ℕ) + 1 ≤ a := by omega
        simp only [dif_neg h1, dif_neg h2, if_pos h, dif_pos h.le]
        have := c3 (blockOf s) hs'
        simp only [Fin.val_castSucc, Fin.val_succ] at this
        rw [← this]
        simp only [h, show a + 1 + c = a + (c + 1) by omega]
        rfl
      · have h1 : ¬ (j : ℕ) < a := by omega
        have h2 : ¬ (j : ℕ) + 1 ≤ a := by omega
        have h3 : ¬ (j : ℕ) = a := by omega
        have h4 : ¬ (j : ℕ) ≤ a := by omega
        simp only [dif_neg h1, dif_neg h2, if_neg h3, dif_neg h4]
        simp only [Fin.castSucc_mk, Fin.succ_mk, show (j : ℕ) + 1 + c = j + c + 1 by omega]
    rw [hL, ofFn_mergeAt, h0]
    conv_rhs => rw [ofFn_parts, walk_merge _ _ _ (by rw [List.ofFn_succ]; exact List.cons_ne_nil _ _), endSet_ofFn]
    rfl

end

end Xmps.FPEPS
