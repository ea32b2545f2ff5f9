import Verif.Lemmas.NconCheck
import Mathlib.Tactic.NormNum

/-!
# Properties C01-C04: `ncon`

`O : SetOrder` is arbitrary everywhere: the statements hold for every iteration order of Python
sets.
-/

namespace Xmps.Ncon

open Function Xmps.Spec

variable {K : Type}

/-- The entries of the result, read at an index list. -/
theorem val_of_label {R : ND K} {F : List ℤ} {dim : ℤ → ℕ} {g : (ℤ → ℕ) → K} (hn : F.Nodup)
    (hs : R.shape = F.map dim) (h : ∀ ρ, R.val (F.map ρ) = g ρ) {idx : List ℕ} (hi : InB R.shape idx) :
    R.val idx = g (assign F idx) := by
  have hl : idx.length = F.length := by
    rw [InB.length_eq hi, hs, List.length_map]
  rw [← h, map_assign _ _ hn hl]

/-- **C01.** `ncon` on a well-labelled network, with explicit orders, returns the Einstein sum. -/
theorem ncon_einsum [CommSemiring K] (O : SetOrder) {AA : List (ND K)} {v : List (List ℤ)} {dim : ℤ → ℕ}
    {P F : List ℤ} (h : WellLabelled AA v dim P F) (check : Bool) :
    ∃ R, ncon O (.many AA) (.nested v) (some P) (some F) check = .ok R ∧ R.shape = F.map dim ∧
      ∀ idx, InB R.shape idx → R.val idx = labelSum P dim (netTerm AA v) (assign F idx) := by
  obtain ⟨R, P', hR, _, hs, hv⟩ := nconBody_spec O h check
  refine ⟨R, ?_, hs, fun idx hi => val_of_label h.nodupF hs hv hi⟩
  have hne : v ≠ [] := by
    rintro rfl
    exact h.nonempty (List.length_eq_zero_iff.1 h.shapes.length_eq)
  obtain ⟨l, v', rfl⟩ := List.exists_cons_of_ne_nil hne
  unfold ncon nconEff
  simp only [VArg.toList, ok_bind, Option.getD_some, TArg.toList, hR]
  rfl

/-- **C01**, default orders: contracted labels ascending, free labels -1, -2, ... -/
theorem ncon_einsum_default [CommSemiring K] (O : SetOrder) {AA : List (ND K)} {v : List (List ℤ)}
    {dim : ℤ → ℕ} {P F : List ℤ} (h : WellLabelled AA v dim P F) (hP : P.Pairwise (· < ·))
    (hF : F.Pairwise (· > ·)) (check : Bool) :
    ncon O (.many AA) (.nested v) none none check = ncon O (.many AA) (.nested v) (some P) (some F) check := by
  have e1 : createOrder v = P := by
    apply List.Perm.eq_of_pairwise (le := (· ≤ ·)) (fun a b _ _ h1 h2 => le_antisymm h1 h2)
    · have := List.pairwise_mergeSort (le := fun a b : ℤ => decide (a ≤ b))
        (by intro a b c h1 h2; simp only [decide_eq_true_eq] at *; omega)
        (by intro a b; simp only [Bool.or_eq_true, decide_eq_true_eq]; omega)
        ((v.flatten.filter (fun i => decide (0 < i))).dedup)
      exact this.imp (by simp)
    · exact hP.imp le_of_lt
    · rw [List.perm_ext_iff_of_nodup (nodup_createOrder v) h.nodupP]
      intro x
      rw [mem_createOrder]
      constructor
      · rintro ⟨hx, h0⟩
        rcases h.only x hx with h' | h'
        · exact h'
        · have := h.negF x h'; omega
      · intro hx
        exact ⟨List.count_pos_iff.1 (by rw [h.twice x hx]; omega), h.posP x hx⟩
  have e2 : createForder v = F := by
    apply List.Perm.eq_of_pairwise (le := (· ≥ ·)) (fun a b _ _ h1 h2 => le_antisymm h2 h1)
    · have := List.pairwise_mergeSort (le := fun a b : ℤ => decide (b ≤ a))
        (by intro a b c h1 h2; simp only [decide_eq_true_eq] at *; omega)
        (by intro a b; simp only [Bool.or_eq_true, decide_eq_true_eq]; omega)
        ((v.flatten.filter (fun i => decide (i < 0))).dedup)
      exact this.imp (by simp)
    · exact hF.imp le_of_lt
    · rw [List.perm_ext_iff_of_nodup (nodup_createForder v) h.nodupF]
      intro x
      rw [mem_createForder]
      constructor
      · rintro ⟨hx, h0⟩
        rcases h.only x hx with h' | h'
        · have := h.posP x h'; omega
        · exact h'
      · intro hx
        exact ⟨List.count_pos_iff.1 (by rw [h.once x hx]; omega), h.negF x hx⟩
  have hne : v ≠ [] := by
    rintro rfl
    exact h.nonempty (List.length_eq_zero_iff.1 h.shapes.length_eq)
  obtain ⟨l, v', rfl⟩ := List.exists_cons_of_ne_nil hne
  unfold ncon nconEff
  simp only [VArg.toList, ok_bind, Option.getD_some, Option.getD_none, TArg.toList, e1, e2]
  cases nconBody O AA (l :: v') P F check <;> rfl

/-- **C01**, single tensor: `ncon(A, l)` is `ncon([A], [l])`. -/
theorem ncon_single [CommSemiring K] (O : SetOrder) (A : ND K) {l : List ℤ} (hl : l ≠ [])
    (order forder : Option (List ℤ)) (check : Bool) :
    ncon O (.one A) (.flat l) order forder check = ncon O (.many [A]) (.nested [l]) order forder check := by
  obtain ⟨a, l', rfl⟩ := List.exists_cons_of_ne_nil hl
  rfl

/-- **C02.** The result depends neither on the contraction order nor on the iteration order of
sets; another free order permutes the legs of the result. -/
theorem ncon_order_independent [CommSemiring K] (O O' : SetOrder) {AA : List (ND K)} {v : List (List ℤ)}
    {dim : ℤ → ℕ} {P P' F F' : List ℤ} (h : WellLabelled AA v dim P F) (hP : P'.Perm P) (hF : F'.Perm F)
    (check check' : Bool) :
    ∃ R R', ncon O (.many AA) (.nested v) (some P) (some F) check = .ok R ∧
      ncon O' (.many AA) (.nested v) (some P') (some F') check' = .ok R' ∧
      R.shape = F.map dim ∧ R'.shape = F'.map dim ∧
      ∀ ρ : ℤ → ℕ, (∀ x ∈ F, ρ x < dim x) → R'.val (F'.map ρ) = R.val (F.map ρ) := by
  have h' : WellLabelled AA v dim P' F' :=
    ⟨h.nonempty, h.shapes, fun x hx => h.posP x (hP.mem_iff.1 hx), fun x hx => h.negF x (hF.mem_iff.1 hx),
      hP.nodup_iff.2 h.nodupP, hF.nodup_iff.2 h.nodupF, fun x hx => h.twice x (hP.mem_iff.1 hx),
      fun x hx => h.once x (hF.mem_iff.1 hx),
      fun x hx => (h.only x hx).imp (fun a => hP.mem_iff.2 a) (fun a => hF.mem_iff.2 a)⟩
  obtain ⟨R, Q, hR, _, hs, hv⟩ := nconBody_spec O h check
  obtain ⟨R', Q', hR', _, hs', hv'⟩ := nconBody_spec O' h' check'
  have hne : v ≠ [] := by
    rintro rfl
    exact h.nonempty (List.length_eq_zero_iff.1 h.shapes.length_eq)
  obtain ⟨l, v', rfl⟩ := List.exists_cons_of_ne_nil hne
  refine ⟨R, R', ?_, ?_, hs, hs', fun ρ _ => ?_⟩
  · unfold ncon nconEff
    simp only [VArg.toList, ok_bind, Option.getD_some, TArg.toList, hR]
    rfl
  · unfold ncon nconEff
    simp only [VArg.toList, ok_bind, Option.getD_some, TArg.toList, hR']
    rfl
  · rw [hv, hv', labelSum_perm hP h'.nodupP]

/-- **C03.** With default orders and the check on, `ncon` returns for the good networks and raises
`ValueError` for all others. -/
theorem ncon_check_exact [CommSemiring K] (O : SetOrder) (AA : List (ND K)) {v : List (List ℤ)} (hv : v ≠ [])
    (hz : ∀ x ∈ v.flatten, x ≠ 0) :
    (GoodNetwork AA v → ∃ R, ncon O (.many AA) (.nested v) = .ok R) ∧
    (¬ GoodNetwork AA v → ncon O (.many AA) (.nested v) = .error .valueError) := by
  obtain ⟨l, v', rfl⟩ := List.exists_cons_of_ne_nil hv
  constructor
  · intro hg
    obtain ⟨dim, hW⟩ := GoodNetwork.wellLabelled hv hg
    obtain ⟨R, P', hR, _⟩ := nconBody_spec O hW true
    refine ⟨R, ?_⟩
    unfold ncon nconEff
    simp only [VArg.toList, ok_bind, Option.getD_none, TArg.toList, hR]
    rfl
  · intro hg
    rw [good_iff_checked hz] at hg
    rcases doCheckIndices_cases AA (l :: v') (createOrder (l :: v')) (createForder (l :: v')) with h | h
    · exact absurd h.1 hg
    · unfold ncon nconEff nconBody
      simp only [VArg.toList, ok_bind, Option.getD_none, TArg.toList, if_true, h.2]
      rfl

/-- **C03**, with the check off the same networks are accepted with the same result. -/
theorem ncon_check_irrelevant [CommSemiring K] (O : SetOrder) {AA : List (ND K)} {v : List (List ℤ)} (hv : v ≠ [])
    (hg : GoodNetwork AA v) :
    ncon O (.many AA) (.nested v) none none false = ncon O (.many AA) (.nested v) none none true := by
  obtain ⟨dim, hW⟩ := GoodNetwork.wellLabelled hv hg
  obtain ⟨l, v', rfl⟩ := List.exists_cons_of_ne_nil hv
  unfold ncon nconEff nconBody
  simp only [VArg.toList, ok_bind, Option.getD_none, TArg.toList, if_true, Bool.false_eq_true, if_false]
  rcases doCheckIndices_cases AA (l :: v') (createOrder (l :: v')) (createForder (l :: v')) with h | h
  · rw [h.2]; rfl
  · exact absurd (checked_of_shapes hW.shapes hW.twice hW.once) h.1

/-- **C04**, the part that holds, and exactly when: the list passed as `order` is unchanged if and
only if the network is connected. (The lists of tensors and labels are copied by `ncon` before
anything is changed: `ncon.py:30-39`.) -/
theorem ncon_order_unchanged_iff_partial [CommSemiring K] (O : SetOrder) {AA : List (ND K)} {v : List (List ℤ)}
    {dim : ℤ → ℕ} {P F : List ℤ} (h : WellLabelled AA v dim P F) (forder : Option (List ℤ))
    (hf : forder.getD (createForder v) = F) (check : Bool) :
    ∃ R P', nconEff O (.many AA) (.nested v) (some P) forder check = .ok (R, some P') ∧
      (P' = P ↔ Connected v) := by
  obtain ⟨R, P', hR, ⟨_, hc, _⟩, _⟩ := nconBody_spec O h check
  have hne : v ≠ [] := by
    rintro rfl
    exact h.nonempty (List.length_eq_zero_iff.1 h.shapes.length_eq)
  obtain ⟨l, v', rfl⟩ := List.exists_cons_of_ne_nil hne
  refine ⟨R, P', ?_, hc⟩
  unfold nconEff
  simp only [VArg.toList, ok_bind, Option.getD_some, TArg.toList, hf, hR]
  rfl

/-- **C04 is violated**: on every disconnected network, after a successful call with an explicit
`order` list the same call with the same list object raises `ValueError`. -/
theorem ncon_repeat_raises [CommSemiring K] (O : SetOrder) {AA : List (ND K)} {v : List (List ℤ)} {dim : ℤ → ℕ}
    {P F : List ℤ} (h : WellLabelled AA v dim P F) (hd : ¬ Connected v) (check : Bool) :
    ∃ R P', nconEff O (.many AA) (.nested v) (some P) (some F) check = .ok (R, some P') ∧
      nconEff O (.many AA) (.nested v) (some P') (some F) true = .error .valueError := by
  obtain ⟨R, P', hR, ⟨hpre, hc, hpos, hnd⟩, _⟩ := nconBody_spec O h check
  have hne : v ≠ [] := by
    rintro rfl
    exact h.nonempty (List.length_eq_zero_iff.1 h.shapes.length_eq)
  obtain ⟨l, v', rfl⟩ := List.exists_cons_of_ne_nil hne
  refine ⟨R, P', ?_, ?_⟩
  · unfold nconEff
    simp only [VArg.toList, ok_bind, Option.getD_some, TArg.toList, hR]
    rfl
  · obtain ⟨t, rfl⟩ := hpre
    have ht : t ≠ [] := by
      rintro rfl
      exact hd (hc.1 (by simp))
    obtain ⟨x, t', rfl⟩ := List.exists_cons_of_ne_nil ht
    have hxP : x ∉ P := by
      intro hx
      rw [List.nodup_append] at hnd
      exact hnd.2.2 x hx x (by simp) rfl
    have hx0 : (l :: v').flatten.count x = 0 := by
      rw [List.count_eq_zero]
      intro hx
      rcases h.only x hx with h' | h'
      · exact hxP h'
      · have h1 := h.negF x h'
        have h2 := hpos x (by simp)
        omega
    have hcheck : doCheckIndices AA (l :: v') (P ++ x :: t') F = .error .valueError := by
      rcases doCheckIndices_cases AA (l :: v') (P ++ x :: t') F with h' | h'
      · have := (h'.1.2.1 x (by simp)).1
        omega
      · exact h'.2
    unfold nconEff nconBody
    simp only [VArg.toList, ok_bind, Option.getD_some, TArg.toList, if_true, hcheck]
    rfl

/-! ### Examples: the hypotheses are met by concrete networks -/

/-- A trace, a contraction and a disconnected vector: shapes (2,2,3), (3,4), (5). -/
def exAA : List (ND ℤ) :=
  [⟨[2, 2, 3], fun i => i.sum⟩, ⟨[3, 4], fun i => 1 + i.sum⟩, ⟨[5], fun i => i.sum⟩]

def exV : List (List ℤ) := [[1, 1, 2], [2, -1], [-2]]

def exDim : ℤ → ℕ := fun x => if x = 1 then 2 else if x = 2 then 3 else if x = -1 then 4 else 5

/-- The example network is well labelled: hypotheses of `ncon_einsum`, `ncon_einsum_default`,
`ncon_order_independent`, `ncon_order_unchanged_iff_partial`. -/
theorem ex_wellLabelled : WellLabelled exAA exV exDim [1, 2] [-1, -2] := by
  refine ⟨by simp [exAA], ?_, by simp, by simp, by simp, by simp, by decide, by decide, by decide⟩
  unfold exAA exV
  refine .cons (by decide) (.cons (by decide) (.cons (by decide) .nil))

theorem ex_not_connected : ¬ Connected exV := by
  intro h
  have := eqvGen_closed (r := share exV) (Q := fun i => i = 2) (fun _ _ => share_symm) (by
    rintro i j ⟨x, hx, hy⟩ rfl
    have hx' : x = -2 := by simpa [exV] using hx
    subst hx'
    match j with
    | 0 => simp [exV] at hy
    | 1 => simp [exV] at hy
    | 2 => rfl
    | j + 3 => simp [exV] at hy) (h 2 (by simp [exV]) 0 (by simp [exV]))
  simp at this

example (O : SetOrder) : ∃ R, ncon O (.many exAA) (.nested exV) (some [2, 1]) (some [-2, -1]) = .ok R ∧
    R.shape = [5, 4] := by
  obtain ⟨R, R', _, h, _, hs, _⟩ := ncon_order_independent O O ex_wellLabelled
    (P' := [2, 1]) (F' := [-2, -1]) (by decide) (by decide) true true
  exact ⟨R', h, hs⟩

example (O : SetOrder) : ∃ R P', nconEff O (.many exAA) (.nested exV) (some [1, 2]) (some [-1, -2]) true =
    .ok (R, some P') ∧
    nconEff O (.many exAA) (.nested exV) (some P') (some [-1, -2]) true = .error .valueError :=
  ncon_repeat_raises O ex_wellLabelled ex_not_connected true

/-- `GoodNetwork` has instances with and without contraction. -/
example : GoodNetwork exAA exV :=
  ⟨⟨exDim, ex_wellLabelled.shapes⟩, by decide⟩

/-- A network with mismatched extents is not good, so `ncon` raises. -/
example (O : SetOrder) : ncon O (.many [⟨[2], fun i => (i.sum : ℤ)⟩, ⟨[3], fun i => i.sum⟩]) (.nested [[1], [1]]) =
    .error .valueError := by
  refine (ncon_check_exact O _ (by simp) (by decide)).2 ?_
  rintro ⟨⟨dim, h⟩, _⟩
  rcases h with _ | ⟨h1, _ | ⟨h2, _⟩⟩
  simp at h1 h2
  omega

/-- A connected example for C04. -/
example : Connected [[1, -1], [1, -2]] := by
  have h01 : Linked [[1, -1], [1, -2]] 0 1 := Relation.EqvGen.rel _ _ ⟨1, by simp, by simp⟩
  intro i hi j hj
  have hi' : i = 0 ∨ i = 1 := by simp at hi; omega
  have hj' : j = 0 ∨ j = 1 := by simp at hj; omega
  rcases hi' with rfl | rfl <;> rcases hj' with rfl | rfl
  · exact Relation.EqvGen.refl _
  · exact h01
  · exact h01.symm
  · exact Relation.EqvGen.refl _

end Xmps.Ncon
