import Verif.Model.TensorTools
import Verif.Lemmas.LabelSum
import Verif.Spec.Partial

/-! # Evaluation of `einsum` with implicit output, and reindexing by kept and traced parts -/

namespace Xmps

open Finset Xmps.Spec

variable {K : Type}

theorem idxOf_cast (l : List ℕ) (x : ℕ) : (l.map fun (n : ℕ) => (n : ℤ)).idxOf (x : ℤ) = l.idxOf x := by
  induction l with
  | nil => rfl
  | cons a l ih =>
    rw [List.map_cons, List.idxOf_cons, List.idxOf_cons, ih]
    have : ((a : ℤ) == (x : ℤ)) = (a == x) := by
      rw [Bool.eq_iff_iff]; simp
    rw [this]

theorem mem_cast {l : List ℕ} {x : ℕ} : (x : ℤ) ∈ (l.map fun (n : ℕ) => (n : ℤ)) ↔ x ∈ l := by
  simp

theorem updates_mem (ρ : ℤ → ℕ) (l : List ℤ) (ks : List ℕ) (hn : l.Nodup) (hl : ks.length = l.length) {x : ℤ}
    (hx : x ∈ l) : updates ρ l ks x = ks.getD (l.idxOf x) 0 := by
  have h := map_updates ρ l ks hn hl
  have hlt := List.idxOf_lt_length_of_mem hx
  have : (l.map (updates ρ l ks))[l.idxOf x]'(by simpa using hlt) = updates ρ l ks x := by
    rw [List.getElem_map, List.getElem_idxOf]
  rw [← this]
  conv_rhs => rw [← h]
  rw [List.getD_eq_getElem _ _ (by simpa using hlt)]

theorem lookup_pairs {dim : ℕ → ℕ} : ∀ {AA : List (ND K)} {v : List (List ℕ)},
    List.Forall₂ (fun (A : ND K) (l : List ℕ) => A.shape = l.map dim) AA v → ∀ x ∈ v.flatten,
    (((AA.zip v).flatMap fun (p : ND K × List ℕ) => p.2.zip p.1.shape).lookup x).getD 0 = dim x
  | [], [], _, x, hx => by simp at hx
  | A :: AA, l :: v, h, x, hx => by
    obtain ⟨hA, h⟩ := List.forall₂_cons.1 h
    rw [List.zip_cons_cons, List.flatMap_cons, List.lookup_append]
    have key : ∀ (l : List ℕ), (l.zip (l.map dim)).lookup x = if x ∈ l then some (dim x) else none := by
      intro l
      induction l with
      | nil => simp
      | cons a l ih =>
        rw [List.map_cons, List.zip_cons_cons, List.lookup_cons]
        by_cases e : x = a
        · subst e; simp
        · have : (x == a) = false := by simpa using e
          simp only [this, ih, List.mem_cons, e, false_or]
    simp only [hA, key]
    by_cases hxl : x ∈ l
    · simp [hxl]
    · simp only [hxl, if_false, Option.none_or]
      refine lookup_pairs h x ?_
      simpa [hxl] using hx
  | [], _ :: _, h, _, _ => by simp at h
  | _ :: _, [], h, _, _ => by simp at h

/-- `einsum` with implicit output: `out` are the labels occurring once, `rep` the others. -/
theorem einsum_ok [CommSemiring K] {AA : List (ND K)} {v : List (List ℕ)} (dim : ℕ → ℕ) {out rep : List ℕ}
    (h : List.Forall₂ (fun (A : ND K) (l : List ℕ) => A.shape = l.map dim) AA v)
    (ho : out.Pairwise (· < ·)) (hr : rep.Pairwise (· < ·))
    (mo : ∀ x, x ∈ out ↔ x ∈ v.flatten ∧ v.flatten.count x = 1)
    (mr : ∀ x, x ∈ rep ↔ x ∈ v.flatten ∧ v.flatten.count x ≠ 1) :
    ∃ R, einsumImplicit AA v = .ok R ∧ R.shape = out.map dim ∧
      ∀ idx, R.val idx = labelSum (rep.map fun (n : ℕ) => (n : ℤ)) (fun x => dim x.toNat)
        (netTerm AA (v.map fun l => l.map fun (n : ℕ) => (n : ℤ))) (assign (out.map fun (n : ℕ) => (n : ℤ)) idx) := by
  set all := v.flatten with hall
  set labels := (List.range (all.foldl max 0 + 1)).filter (· ∈ all) with hlab
  have hmaxaux : ∀ (l : List ℕ) (m : ℕ), m ≤ l.foldl max m ∧ ∀ x ∈ l, x ≤ l.foldl max m := by
    intro l
    induction l with
    | nil => simp
    | cons a l ih =>
      intro m
      obtain ⟨h1, h2⟩ := ih (max m a)
      refine ⟨by simp only [List.foldl_cons]; omega, fun x hx => ?_⟩
      rcases List.mem_cons.1 hx with rfl | hx
      · simp only [List.foldl_cons]; omega
      · exact h2 x hx
  have hmem : ∀ x, x ∈ labels ↔ x ∈ all := by
    intro x
    simp only [hlab, List.mem_filter, List.mem_range, decide_eq_true_eq, and_iff_right_iff_imp]
    intro hx
    have := (hmaxaux all 0).2 x hx
    omega
  have hlsorted : labels.Pairwise (· < ·) := List.Pairwise.filter _ List.pairwise_lt_range
  have eqs : ∀ (p : ℕ → Bool) (l : List ℕ), l.Pairwise (· < ·) → (∀ x, x ∈ l ↔ x ∈ all ∧ p x = true) → labels.filter p = l := by
    intro p l hl hm
    have h1 : (labels.filter p).Pairwise (· < ·) := List.Pairwise.filter _ hlsorted
    have hp : (labels.filter p).Perm l := by
      rw [List.perm_ext_iff_of_nodup (h1.imp (fun h => Nat.ne_of_lt h)) (hl.imp (fun h => Nat.ne_of_lt h))]
      intro x
      rw [List.mem_filter, hmem, hm]
    exact hp.eq_of_pairwise (fun a b _ _ h1 h2 => absurd h1 (by omega)) h1 hl
  have eo := eqs (fun x => all.count x = 1) out ho (by intro x; rw [mo]; simp)
  have er := eqs (fun x => all.count x ≠ 1) rep hr (by intro x; rw [mr]; simp)
  have hdim : ∀ x ∈ all, (((AA.zip v).flatMap fun (p : ND K × List ℕ) => p.2.zip p.1.shape).lookup x).getD 0 = dim x :=
    lookup_pairs h
  set pairs := ((AA.zip v).flatMap fun (p : ND K × List ℕ) => p.2.zip p.1.shape) with hpairs
  have hcond : AA.length = v.length ∧ (List.zipWith (fun (A : ND K) (l : List ℤ) =>
      decide (A.shape = l.map (fun x : ℤ => (pairs.lookup x.toNat).getD 0))) AA
        (v.map fun l => l.map fun (n : ℕ) => (n : ℤ))).all id = true := by
    refine ⟨h.length_eq, ?_⟩
    have aux : ∀ {AA : List (ND K)} {v' : List (List ℕ)},
        List.Forall₂ (fun (A : ND K) (l : List ℕ) => A.shape = l.map dim) AA v' → (∀ x ∈ v'.flatten, x ∈ all) →
        (List.zipWith (fun (A : ND K) (l : List ℤ) =>
          decide (A.shape = l.map (fun x : ℤ => (pairs.lookup x.toNat).getD 0))) AA
          (v'.map fun l => l.map fun (n : ℕ) => (n : ℤ))).all id = true := by
      intro AA v' h'
      induction h' with
      | nil => intro _; rfl
      | @cons A l AA v' hA _ ih =>
        intro hin
        rw [List.map_cons, List.zipWith_cons_cons, List.all_cons, ih (fun x hx => hin x (by simp only [List.flatten_cons, List.mem_append]; exact Or.inr hx)), Bool.and_true]
        simp only [id, decide_eq_true_eq, List.map_map]
        rw [hA]
        refine List.map_congr_left fun x hx => ?_
        simp only [Function.comp, Int.toNat_natCast]
        exact (hdim x (hin x (by simp only [List.flatten_cons, List.mem_append]; exact Or.inl hx))).symm
    exact aux h (fun x hx => hx)
  refine ⟨_, by
    unfold einsumImplicit
    simp only []
    rw [if_pos hcond], ?_, fun idx => ?_⟩
  · simp only [← hall, ← hlab, eo, Int.toNat_natCast]
    exact List.map_congr_left fun x hx => hdim x ((mo x).1 hx).1
  · simp only [← hall, ← hlab, eo, er]
    refine labelSum_dim_congr _ ?_ _ _
    intro x hx
    obtain ⟨y, hy, rfl⟩ := List.mem_map.1 hx
    simp only [Int.toNat_natCast]
    exact hdim y ((mr y).1 hy).1

theorem updates_append (ρ : ℤ → ℕ) : ∀ (l l' : List ℤ) (ks ks' : List ℕ), ks.length = l.length →
    updates ρ (l ++ l') (ks ++ ks') = updates (updates ρ l ks) l' ks'
  | [], l', [], ks', _ => rfl
  | x :: l, l', k :: ks, ks', h => updates_append (Function.update ρ x k) l l' ks ks' (by simpa using h)
  | [], _, _ :: _, _, h => by simp at h
  | _ :: _, _, [], _, h => by simp at h

theorem kept_perm (keep : List ℕ) (n : ℕ) : (kept keep n ++ traced keep n).Perm (List.range n) := by
  have := List.filter_append_perm (fun x => decide (x ∈ keep)) (List.range n)
  unfold kept traced
  simpa using this

theorem mem_kept {keep : List ℕ} {n p : ℕ} : p ∈ kept keep n ↔ p < n ∧ p ∈ keep := by simp [kept]
theorem mem_traced {keep : List ℕ} {n p : ℕ} : p ∈ traced keep n ↔ p < n ∧ p ∉ keep := by simp [traced]
theorem kept_sorted (keep : List ℕ) (n : ℕ) : (kept keep n).Pairwise (· < ·) := List.Pairwise.filter _ List.pairwise_lt_range
theorem traced_sorted (keep : List ℕ) (n : ℕ) : (traced keep n).Pairwise (· < ·) := List.Pairwise.filter _ List.pairwise_lt_range
theorem nodup_of_lt {l : List ℕ} (h : l.Pairwise (· < ·)) : l.Nodup := h.imp (fun h => Nat.ne_of_lt h)
theorem nodup_cast {l : List ℕ} (h : l.Nodup) : (l.map fun (n : ℕ) => (n : ℤ)).Nodup :=
  h.map (fun a b h => by simpa using h)

/-- Summing over the kept and the traced values is summing over all values. -/
theorem sum_merge [AddCommMonoid K] (keep dims : List ℕ) (f : List ℕ → K) :
    sumIdx ((kept keep dims.length).map fun p => dims.getD p 0) (fun a =>
      sumIdx ((traced keep dims.length).map fun p => dims.getD p 0) fun t => f (merge keep dims.length a t)) =
    sumIdx dims f := by
  set n := dims.length
  set dim : ℤ → ℕ := fun x => dims.getD x.toNat 0
  set c : ℕ → ℤ := fun n => (n : ℤ) with hc
  have hp : ((kept keep n ++ traced keep n).map c).Perm ((List.range n).map c) := (kept_perm keep n).map c
  have h := labelSum_perm hp (nodup_cast (nodup_of_lt (kept_sorted keep n) |>.append (nodup_of_lt (traced_sorted keep n))
    (by
      intro x h1 h2
      exact (mem_traced.1 h2).2 (mem_kept.1 h1).2))) dim
    (fun ρ => f (((List.range n).map c).map ρ)) (fun _ => 0)
  rw [labelSum_eq_sumIdx, labelSum_eq_sumIdx, List.map_append, List.map_append, sumIdx_append] at h
  have e1 : ∀ l : List ℕ, (l.map c).map dim = l.map fun p => dims.getD p 0 := by
    intro l
    simp [hc, dim, Function.comp_def]
  simp only [e1] at h
  have e2 : ((List.range n).map fun p => dims.getD p 0) = dims := by
    apply List.ext_getElem
    · simp [n]
    · intro i h1 h2; simp [h2]
  rw [e2] at h
  have e3 : sumIdx dims (fun ks => f (((List.range n).map c).map (updates (fun _ => 0) ((List.range n).map c) ks))) = sumIdx dims f := by
    refine sumIdx_congr fun idx hi => ?_
    rw [map_updates _ _ _ (nodup_cast List.nodup_range) (by simp [hi.length_eq, n])]
  rw [e3] at h
  rw [← h]
  refine sumIdx_congr fun a ha => sumIdx_congr fun t ht => ?_
  have la : a.length = (kept keep n).length := by simpa using ha.length_eq
  have lt : t.length = (traced keep n).length := by simpa using ht.length_eq
  rw [updates_append _ _ _ _ _ (by simpa using la)]
  congr 1
  rw [merge, List.map_map]
  refine List.map_congr_left fun p hpn => ?_
  have hpn' : p < n := by simpa using hpn
  simp only [Function.comp]
  by_cases hk : p ∈ keep
  · rw [if_pos hk, updates_of_not_mem, updates_mem _ _ _ (nodup_cast (nodup_of_lt (kept_sorted keep n))) (by simpa using la)]
    · rw [hc, idxOf_cast]
    · exact mem_cast.2 (mem_kept.2 ⟨hpn', hk⟩)
    · intro h'; exact (mem_traced.1 (mem_cast.1 h')).2 hk
  · rw [if_neg hk, updates_mem _ _ _ (nodup_cast (nodup_of_lt (traced_sorted keep n))) (by simpa using lt)]
    · rw [hc, idxOf_cast]
    · exact mem_cast.2 (mem_traced.2 ⟨hpn', hk⟩)

end Xmps
