import Verif.Spec.Expect
import Verif.Lemmas.ChainNet
import Verif.Lemmas.Gauge
import Verif.Model.Expect
import Verif.Props.Orthogonalise

/-! # Lemmas about expectation values -/

namespace Xmps

open Finset Xmps.Spec Xmps.Ncon

variable {K : Type}

/-! ### the link lists -/

theorem linksOp_eq {L : ℕ} (hL : 0 < L) : FMPS.linksOp L =
    chainL ((List.range' 1 L).map fun (n : ℕ) => (n : ℤ))
      ((2 * L + 1 : ℤ) :: (List.range' 2 (L - 1)).map (fun (n : ℕ) => (2 * L + n : ℤ)) ++ [(3 * L + 1 : ℤ)]) ++
    [(List.range' 1 (2 * L)).map fun (n : ℕ) => (n : ℤ)] ++
    chainL ((List.range' 1 L).map fun (n : ℕ) => (L + n : ℤ))
      ((2 * L + 1 : ℤ) :: (List.range' 2 (L - 1)).map (fun (n : ℕ) => (3 * L + n : ℤ)) ++ [(3 * L + 1 : ℤ)]) := by
  obtain ⟨k, rfl⟩ : ∃ k, L = k + 1 := ⟨L - 1, by omega⟩
  have hr : List.range' 1 (k + 1 + 1) = 1 :: (List.range' 2 k ++ [k + 2]) := by
    rw [List.range'_succ, List.range'_1_concat]
    congr 3
    omega
  unfold FMPS.linksOp
  congr 1
  · congr 1
    have := chainL_map (fun n : ℕ => (n : ℤ)) (fun n => (2 * ((k + 1 : ℕ) : ℤ) + n : ℤ)) (k + 1) 1
    rw [hr] at this
    simp only [List.map_cons, List.map_append, List.map_nil] at this
    simp only [Nat.add_sub_cancel]
    have e1 : (2 * ((k + 1 : ℕ) : ℤ) + ((k + 2 : ℕ) : ℤ)) = 3 * ((k + 1 : ℕ) : ℤ) + 1 := by push_cast; ring
    rw [e1] at this
    rw [List.cons_append, show (2 * ((k + 1 : ℕ) : ℤ) + ((1 : ℕ) : ℤ)) = 2 * ((k + 1 : ℕ) : ℤ) + 1 by push_cast; ring] at *
    rw [← this]
    refine List.map_congr_left fun n _ => ?_
    push_cast
    simp [add_assoc]
  · have := chainL_map (fun n : ℕ => (((k + 1 : ℕ) : ℤ) + n : ℤ))
      (fun n : ℕ => if n = 1 then (2 * ((k + 1 : ℕ) : ℤ) + 1) else if n = k + 2 then 3 * ((k + 1 : ℕ) : ℤ) + 1
        else (3 * ((k + 1 : ℕ) : ℤ) + n : ℤ)) (k + 1) 1
    rw [hr] at this
    simp only [List.map_cons, List.map_append, List.map_nil, if_true] at this
    simp only [Nat.add_sub_cancel]
    rw [if_neg (show ¬ (k + 2 = 1) by omega)] at this
    have e2 : (List.range' 2 k).map (fun n : ℕ => if n = 1 then (2 * ((k + 1 : ℕ) : ℤ) + 1) else if n = k + 2 then
        3 * ((k + 1 : ℕ) : ℤ) + 1 else (3 * ((k + 1 : ℕ) : ℤ) + n : ℤ)) =
        (List.range' 2 k).map (fun n : ℕ => (3 * ((k + 1 : ℕ) : ℤ) + n : ℤ)) := by
      refine List.map_congr_left fun n hn => ?_
      rw [List.mem_range'_1] at hn
      rw [if_neg (by omega), if_neg (by omega)]
    rw [e2] at this
    rw [List.cons_append, ← this]
    refine List.map_congr_left fun n hn => ?_
    rw [List.mem_range'_1] at hn
    by_cases h1 : n = 1 <;> by_cases h2 : n = k + 1
    · subst h1
      have : k = 0 := by omega
      subst this
      simp
    · subst h1
      simp [h2, show ¬ (1 = k + 1) from h2]
      omega
    · subst h2
      simp [h1]
      omega
    · simp [h1, h2, show ¬ n = k + 2 by omega, show ¬ n = 0 by omega]
      try ring

theorem linksRho_eq {L : ℕ} (hL : 0 < L) : FMPS.linksRho L =
    chainL ((List.range' 1 L).map fun (n : ℕ) => (-n : ℤ))
      ((1 : ℤ) :: (List.range' 2 (L - 1)).map (fun (n : ℕ) => (n : ℤ)) ++ [(2 * L + 1 : ℤ)]) ++
    chainL ((List.range' (L + 1) L).map fun (n : ℕ) => (-n : ℤ))
      ((1 : ℤ) :: (List.range' (L + 2) (L - 1)).map (fun (n : ℕ) => (n : ℤ)) ++ [(2 * L + 1 : ℤ)]) := by
  obtain ⟨k, rfl⟩ : ∃ k, L = k + 1 := ⟨L - 1, by omega⟩
  have hr : ∀ a, List.range' a (k + 1 + 1) = a :: (List.range' (a + 1) k ++ [a + 1 + k]) := by
    intro a
    rw [List.range'_succ, List.range'_1_concat]
  unfold FMPS.linksRho
  congr 1
  · have := chainL_map (fun n : ℕ => (-n : ℤ))
      (fun n : ℕ => if n = k + 2 then 2 * ((k + 1 : ℕ) : ℤ) + 1 else (n : ℤ)) (k + 1) 1
    rw [hr] at this
    simp only [List.map_cons, List.map_append, List.map_nil, Nat.add_sub_cancel] at this ⊢
    rw [if_neg (show ¬ (1 = k + 2) by omega), if_pos (show 1 + 1 + k = k + 2 by omega)] at this
    have e2 : (List.range' (1 + 1) k).map (fun n : ℕ => if n = k + 2 then 2 * ((k + 1 : ℕ) : ℤ) + 1 else (n : ℤ)) =
        (List.range' 2 k).map (fun n : ℕ => (n : ℤ)) := by
      refine List.map_congr_left fun n hn => ?_
      rw [List.mem_range'_1] at hn
      rw [if_neg (by omega)]
    rw [e2] at this
    rw [List.cons_append]
    push_cast at this ⊢
    rw [← this]
    refine List.map_congr_left fun n hn => ?_
    rw [List.mem_range'_1] at hn
    by_cases h2 : n = k + 1
    · subst h2; simp
    · simp [h2, show ¬ (n = k + 2) by omega]
  · have := chainL_map (fun n : ℕ => (-n : ℤ))
      (fun n : ℕ => if n = k + 2 then 1 else (n : ℤ)) (k + 1) (k + 1 + 1)
    rw [hr] at this
    simp only [List.map_cons, List.map_append, List.map_nil, Nat.add_sub_cancel] at this ⊢
    rw [if_pos trivial, if_neg (show ¬ (k + 1 + 1 + 1 + k = k + 2) by omega)] at this
    have e2 : (List.range' (k + 1 + 1 + 1) k).map (fun n : ℕ => if n = k + 2 then 1 else (n : ℤ)) =
        (List.range' (k + 1 + 2) k).map (fun n : ℕ => (n : ℤ)) := by
      refine List.map_congr_left fun n hn => ?_
      rw [List.mem_range'_1] at hn
      rw [if_neg (by omega)]
    rw [e2, show ((k + 1 + 1 + 1 + k : ℕ) : ℤ) = 2 * ((k + 1 : ℕ) : ℤ) + 1 by push_cast; ring] at this
    rw [List.cons_append, ← this]
    refine List.map_congr_left fun n hn => ?_
    rw [List.mem_range'_1] at hn
    by_cases h2 : n = k + 1 + 1
    · subst h2; simp
    · simp [h2, show ¬ (n = k + 2) by omega, show ¬ (n = k + 1) by omega]

/-! ### expectation values and reduced density matrices of a block -/

section
variable [CommSemiring K] [StarRing K]

theorem opExpect_split {ds1 ds0 ds2 : List ℕ} (As : List (ND K)) (G : List ℕ → List ℕ → K) :
    opExpect (ds1 ++ (ds0 ++ ds2)) As ds1.length ds0.length G =
    sumIdx ds0 fun s => sumIdx ds0 fun t => G s t *
      sumIdx ds1 fun u => sumIdx ds2 fun w => star (psi As (u ++ (s ++ w))) * psi As (u ++ (t ++ w)) := by
  unfold opExpect
  have e : ((ds1 ++ (ds0 ++ ds2)).drop ds1.length).take ds0.length = ds0 := by simp
  rw [e, sumIdx_append]
  simp only [sumIdx_append, ← sumIdx_mul_left]
  rw [sumIdx_comm ds1 ds0]
  refine sumIdx_congr fun s hs => ?_
  calc _ = sumIdx ds1 fun u => sumIdx ds0 fun t => sumIdx ds2 fun w => G s t * (star (psi As (u ++ (s ++ w))) * psi As (u ++ (t ++ w))) := by
        refine sumIdx_congr fun u hu => ?_
        rw [sumIdx_comm ds2 ds0]
        refine sumIdx_congr fun t ht => sumIdx_congr fun w hw => ?_
        have l1 := hu.length_eq
        have l2 := hs.length_eq
        have e1 : ((u ++ (s ++ w)).drop ds1.length).take ds0.length = s := by
          rw [← l1, List.drop_left, ← l2, List.take_left]
        have e2 : (u ++ (s ++ w)).take ds1.length = u := by rw [← l1, List.take_left]
        have e3 : (u ++ (s ++ w)).drop (ds1.length + ds0.length) = w := by
          rw [← l1, ← l2, ← List.drop_drop, List.drop_left, List.drop_left]
        rw [e1, e2, e3]
        ring
    _ = _ := sumIdx_comm ds1 ds0 _

theorem opExpect_block {ds1 ds0 ds2 : List ℕ} {As1 As0 As2 : List (ND K)} {m n : ℕ}
    (h1 : MpsChain ds1 As1 1 m) (h0 : MpsChain ds0 As0 m n) (h2 : MpsChain ds2 As2 n 1) (hne : As0 ≠ [])
    (i1 : ∀ A ∈ As1, LeftIso A) (i2 : ∀ A ∈ As2, RightIso A) (G : List ℕ → List ℕ → K) :
    opExpect (ds1 ++ (ds0 ++ ds2)) (As1 ++ (As0 ++ As2)) ds1.length ds0.length G =
    sumIdx ds0 fun s => sumIdx ds0 fun t => ∑ a ∈ range m, ∑ b ∈ range n,
      star (amp As0 s a b) * (G s t * amp As0 t a b) := by
  rw [opExpect_split]
  refine sumIdx_congr fun s hs => sumIdx_congr fun t ht => ?_
  have hc : MpsChain (ds1 ++ (ds0 ++ ds2)) (As1 ++ (As0 ++ As2)) 1 1 :=
    (mpsChain_append h1.length_eq).2 ⟨m, h1, (mpsChain_append h0.length_eq).2 ⟨n, h0, h2⟩⟩
  have hps : ∀ u w v, InB ds1 u → InB ds0 v → InB ds2 w →
      psi (As1 ++ (As0 ++ As2)) (u ++ (v ++ w)) = amp (As1 ++ (As0 ++ As2)) (u ++ (v ++ w)) 0 0 := by
    intro u w v hu hv hw
    exact psi_eq_amp hc (by simp [hne]) (by simp [hu.length_eq, hv.length_eq, hw.length_eq])
  rw [show (sumIdx ds1 fun u => sumIdx ds2 fun w => star (psi (As1 ++ (As0 ++ As2)) (u ++ (s ++ w))) *
      psi (As1 ++ (As0 ++ As2)) (u ++ (t ++ w))) = _ from
    sumIdx_congr fun u hu => sumIdx_congr fun w hw => by rw [hps u w s hu hs hw, hps u w t hu ht hw],
    block_center h1 h0 h2 i1 i2 hs.length_eq ht.length_eq, Finset.mul_sum]
  refine Finset.sum_congr rfl fun a _ => ?_
  rw [Finset.mul_sum]
  refine Finset.sum_congr rfl fun b _ => ?_
  ring

theorem redDens_split {ds1 ds0 ds2 : List ℕ} (As : List (ND K)) (t s : List ℕ) :
    redDens (ds1 ++ (ds0 ++ ds2)) As ds1.length ds0.length t s =
      sumIdx ds1 fun u => sumIdx ds2 fun w => psi As (u ++ (t ++ w)) * star (psi As (u ++ (s ++ w))) := by
  unfold redDens
  rw [List.take_left, ← List.drop_drop, List.drop_left, List.drop_left]

theorem redDens_block {ds1 ds0 ds2 : List ℕ} {As1 As0 As2 : List (ND K)} {m n : ℕ}
    (h1 : MpsChain ds1 As1 1 m) (h0 : MpsChain ds0 As0 m n) (h2 : MpsChain ds2 As2 n 1) (hne : As0 ≠ [])
    (i1 : ∀ A ∈ As1, LeftIso A) (i2 : ∀ A ∈ As2, RightIso A) {s t : List ℕ} (hs : InB ds0 s) (ht : InB ds0 t) :
    redDens (ds1 ++ (ds0 ++ ds2)) (As1 ++ (As0 ++ As2)) ds1.length ds0.length t s =
    ∑ a ∈ range m, ∑ b ∈ range n, amp As0 t a b * star (amp As0 s a b) := by
  rw [redDens_split]
  have hc : MpsChain (ds1 ++ (ds0 ++ ds2)) (As1 ++ (As0 ++ As2)) 1 1 :=
    (mpsChain_append h1.length_eq).2 ⟨m, h1, (mpsChain_append h0.length_eq).2 ⟨n, h0, h2⟩⟩
  have hps : ∀ u w v, InB ds1 u → InB ds0 v → InB ds2 w →
      psi (As1 ++ (As0 ++ As2)) (u ++ (v ++ w)) = amp (As1 ++ (As0 ++ As2)) (u ++ (v ++ w)) 0 0 := by
    intro u w v hu hv hw
    exact psi_eq_amp hc (by simp [hne]) (by simp [hu.length_eq, hv.length_eq, hw.length_eq])
  rw [show (sumIdx ds1 fun u => sumIdx ds2 fun w => psi (As1 ++ (As0 ++ As2)) (u ++ (t ++ w)) *
      star (psi (As1 ++ (As0 ++ As2)) (u ++ (s ++ w)))) = _ from
    sumIdx_congr fun u hu => sumIdx_congr fun w hw => by rw [hps u w s hu hs hw, hps u w t hu ht hw, mul_comm],
    block_center h1 h0 h2 i1 i2 hs.length_eq ht.length_eq]
  exact Finset.sum_congr rfl fun a _ => Finset.sum_congr rfl fun b _ => mul_comm _ _

end

/-- cutting a chain at a block of sites -/
theorem chain_block {ds : List ℕ} {As : List (ND K)} {l r i k : ℕ} (h : MpsChain ds As l r) (hik : i + k ≤ ds.length) :
    ∃ ds1 ds0 ds2 As1 As0 As2 m n, ds = ds1 ++ (ds0 ++ ds2) ∧ As = As1 ++ (As0 ++ As2) ∧ ds1.length = i ∧
      As1.length = i ∧ ds0.length = k ∧ As0.length = k ∧ MpsChain ds1 As1 l m ∧ MpsChain ds0 As0 m n ∧
      MpsChain ds2 As2 n r := by
  have hl := h.length_eq
  have e1 : ds = ds.take i ++ ((ds.drop i).take k ++ (ds.drop i).drop k) := by simp
  have e2 : As = As.take i ++ ((As.drop i).take k ++ (As.drop i).drop k) := by simp
  rw [e1, e2] at h
  obtain ⟨m, h1, h⟩ := (mpsChain_append (by simp; omega)).1 h
  obtain ⟨n, h0, h2⟩ := (mpsChain_append (by simp; omega)).1 h
  exact ⟨_, _, _, _, _, _, m, n, e1, e2, by simp; omega, by simp; omega, by simp; omega, by simp; omega, h1, h0, h2⟩

theorem mapM_pyGet_range {α : Type} : ∀ (k i : ℕ) (l : List α), i + k ≤ l.length →
    (List.range' i k).mapM (pyGet l) = .ok ((l.drop i).take k)
  | 0, i, l, _ => by simp
  | k + 1, i, l, h => by
    rw [List.range'_succ, List.mapM_cons, mapM_pyGet_range k (i + 1) l (by omega)]
    have hi : i < l.length := by omega
    rw [show pyGet l i = .ok l[i] by simp [pyGet, hi], ok_bind, ok_bind, py_pure,
      List.drop_eq_getElem_cons hi, List.take_succ_cons]

/-- an orthogonality centre inside the block makes the rest isometric -/
theorem CenteredAt.block [CommSemiring K] [StarRing K] {As1 As0 As2 : List (ND K)} {c : ℕ}
    (h : CenteredAt (As1 ++ (As0 ++ As2)) c) (h1 : As1.length ≤ c) (h2 : c < As1.length + As0.length) :
    (∀ A ∈ As1, LeftIso A) ∧ ∀ A ∈ As2, RightIso A := by
  refine ⟨fun A hA => h.2.1 A ?_, fun A hA => h.2.2 A ?_⟩
  · rw [List.take_append]
    simp [List.take_of_length_le h1, hA]
  · rw [List.drop_append, List.drop_append]
    have : c + 1 - As1.length - As0.length = 0 := by omega
    simp [this, hA]

end Xmps
