import Verif.Lemmas.DAdtFullLinks
import Verif.Lemmas.TangentVec
import Verif.Props.Expect
import Verif.Spec.FullHam

/-! # One site of `dA_dt` with a full Hamiltonian -/

namespace Xmps

open Finset Xmps.Spec Xmps.Ncon

theorem conj_conj (A : ND ℂ) : A.conj.conj = A := by
  cases A
  simp [ND.conj]

/-- the labels of `B(n)` -/
theorem fullLinks_labels {L n : ℕ} (hn : n < L) :
    ((List.range' 1 n).map (fun (k : ℕ) => (k : ℤ)) ++ (((n : ℤ) + 1) :: ((List.range' (n + 2) (L - n - 1)).map (fun (k : ℕ) => (k : ℤ)) ++
      ((List.range' 1 L).map (fun (k : ℕ) => (L + k : ℤ)) ++ ((2 * L + 1 : ℤ) :: ((List.range' 2 n).map (fun (k : ℕ) => (2 * L + k : ℤ)) ++
        ((List.range' (n + 3) (L - n - 1)).map (fun (k : ℕ) => (2 * L + k : ℤ)) ++ (List.range' 2 (L - 1)).map (fun (k : ℕ) => (3 * L + k : ℤ))))))))).Nodup ∧
    ∀ x ∈ ((List.range' 1 n).map (fun (k : ℕ) => (k : ℤ)) ++ (((n : ℤ) + 1) :: ((List.range' (n + 2) (L - n - 1)).map (fun (k : ℕ) => (k : ℤ)) ++
      ((List.range' 1 L).map (fun (k : ℕ) => (L + k : ℤ)) ++ ((2 * L + 1 : ℤ) :: ((List.range' 2 n).map (fun (k : ℕ) => (2 * L + k : ℤ)) ++
        ((List.range' (n + 3) (L - n - 1)).map (fun (k : ℕ) => (2 * L + k : ℤ)) ++ (List.range' 2 (L - 1)).map (fun (k : ℕ) => (3 * L + k : ℤ))))))))), 0 < x := by
  constructor
  · refine List.Pairwise.imp (R := (· < ·)) (fun h => ne_of_lt h) ?_
    have r : ∀ (c : ℤ) (a n : ℕ), ((List.range' a n).map fun k : ℕ => (c + k : ℤ)).Pairwise (· < ·) := fun c a n => by
      rw [List.pairwise_map]
      exact (List.pairwise_lt_range' (s := a) (n := n)).imp fun h => by omega
    have r0 : ∀ (a n : ℕ), ((List.range' a n).map fun k : ℕ => (k : ℤ)).Pairwise (· < ·) := fun a n => by
      rw [List.pairwise_map]
      exact (List.pairwise_lt_range' (s := a) (n := n)).imp fun h => by omega
    simp only [List.pairwise_append, List.pairwise_cons, r, r0, List.mem_append, List.mem_map, List.mem_range'_1, List.mem_cons, true_and]
    repeat' apply And.intro
    all_goals grind
  · intro x hx
    simp only [List.mem_append, List.mem_map, List.mem_range'_1, List.mem_cons] at hx
    rcases hx with ⟨a, ha, rfl⟩ | rfl | ⟨a, ha, rfl⟩ | ⟨a, ha, rfl⟩ | rfl | ⟨a, ha, rfl⟩ | ⟨a, ha, rfl⟩ | ⟨a, ha, rfl⟩ <;> omega

/-- the conjugate chain of `B(n)`: the projector at the site, the inverse environment at the next one -/
theorem fullBra_ok {inv : ND ℂ → Py (ND ℂ)} (hinv : InvLaw inv) {x : FMPS ℂ} {L d n q : ℕ} (hx : x.Holds (List.replicate L d)) (hn : n < x.data.length)
    (h3 : MpsChain ((List.replicate L d).drop (n + 1)) (x.data.drop (n + 1)) q 1) {ls rs prs : List (ND ℂ)} {l r pr : ND ℂ} {mu rho : ℕ → ℝ}
    (E : EnvCut (List.replicate L d) x.data ls rs (n + 1) q l r mu rho) (hpr : pyGet prs n = .ok pr) :
    ∃ X, MpsChain ((List.replicate L d).drop (n + 1)) ((x.data.drop (n + 1)).set 0 X) q 1 ∧
      FMPS.fullBra inv x rs prs n = .ok ((x.data.take n).map ND.conj ++ (pr :: ((x.data.drop (n + 1)).set 0 X).map ND.conj)) ∧
      ∀ s, InB ((List.replicate L d).drop (n + 1)) s → ∀ c < q, amp ((x.data.drop (n + 1)).set 0 X) s c 0 = (rho c : ℂ)⁻¹ * amp (x.data.drop (n + 1)) s c 0 := by
  obtain ⟨hlen, hxL, -⟩ := hx.rep_L
  have hbra : ∀ Y : ND ℂ, (∀ h : n + 1 < x.data.length, (do
        let r ← FMPS.envAt rs (n : ℤ)
        let ri ← inv r
        ri.conj.matmul (x.data[n + 1]).conj : Py (ND ℂ)) = .ok Y) →
      FMPS.fullBra inv x rs prs n = .ok ((x.data.take n).map ND.conj ++ (pr :: ((x.data.drop (n + 1)).set 0 Y.conj).map ND.conj)) := by
    intro Y hY
    unfold FMPS.fullBra
    rw [mapM_zipIdx (g := fun j => if j = n then pr else if j = n + 1 then Y else (x.data.getD j ⟨[], fun _ => 0⟩).conj)]
    · congr 1
      refine List.ext_getElem (by simp; omega) ?_
      intro j h1 h2
      have hj : j < x.data.length := by simpa using h1
      rw [List.getElem_map, List.getElem_range, List.getElem_append]
      have hmin : min n x.data.length = n := Nat.min_eq_left hn.le
      rcases Nat.lt_trichotomy j n with h | h | h
      · rw [dif_pos (by simp; omega), if_neg (by omega), if_neg (by omega), List.getD_eq_getElem _ _ hj]
        simp
      · subst h
        rw [dif_neg (by simp), if_pos rfl]
        simp [hmin]
      · rw [dif_neg (by simp; omega), if_neg (by omega)]
        simp only [List.length_map, List.length_take, hmin]
        obtain ⟨m, rfl⟩ : ∃ m, j = n + (m + 1) := ⟨j - n - 1, by omega⟩
        simp only [show n + (m + 1) - n = m + 1 by omega, List.getElem_cons_succ, List.getElem_map, List.getElem_set, List.getElem_drop]
        by_cases hm : m = 0
        · subst hm
          rw [if_pos rfl, if_pos rfl, conj_conj]
        · rw [if_neg (by omega), if_neg (by omega), List.getD_eq_getElem _ _ hj]
          simp only [show n + 1 + m = n + (m + 1) by omega]
    · intro j hj
      dsimp only
      split_ifs with g1 g2
      · rw [g1, hpr]
      · subst g2
        exact hY hj
      · rw [List.getD_eq_getElem _ _ hj]
  by_cases hlast : n + 1 < x.data.length
  · rw [List.drop_eq_getElem_cons hlast, List.drop_eq_getElem_cons (show n + 1 < (List.replicate L d).length by simp; omega)] at h3
    obtain ⟨m, hB, h3⟩ := h3
    rw [List.getElem_replicate] at hB
    have hrho : ∀ a < q, ∀ b < q, r.val [a, b] = if a = b then (rho a : ℂ) else 0 := by
      intro a ha b hb
      rw [E.hrv a ha b hb, E.right a ha b hb]
    have hne : ∀ a < q, (rho a : ℂ) ≠ 0 := fun a ha => Complex.ofReal_ne_zero.2 (E.pos' a ha).ne'
    obtain ⟨ri, f3, hri, hriv⟩ := hinv r ⟨[q, q], fun
        | [a, b] => if a = b then (rho a : ℂ)⁻¹ else 0
        | _ => 0⟩ q E.hr rfl (by
      intro a ha b hb
      rw [Finset.sum_eq_single a]
      · rw [hrho a ha a ha, if_pos rfl]
        simp only
        split_ifs
        · rw [mul_inv_cancel₀ (hne a ha)]
        · rw [mul_zero]
      · intro k hk hka
        rw [hrho a ha k (Finset.mem_range.1 hk), if_neg (Ne.symm hka), zero_mul]
      · intro hn
        exact absurd (Finset.mem_range.2 ha) hn)
    obtain ⟨Y, f4, hY, hYv⟩ := diag_mul_left (Y := ri.conj) (V := (x.data[n + 1]).conj) (mu := fun a => (rho a : ℂ)⁻¹) hri hB (by
      intro a ha b hb
      show star (ri.val [a, b]) = _
      rw [hriv a ha b hb]
      dsimp only
      split_ifs
      · rw [star_inv₀]
        exact congrArg _ (Complex.conj_ofReal _)
      · rw [star_zero])
    have er := E.er
    rw [show (((n + 1 : ℕ) : ℤ) - 1) = (n : ℤ) by push_cast; ring] at er
    have hX : (x.data.drop (n + 1)).set 0 Y.conj = Y.conj :: x.data.drop (n + 1 + 1) := by
      rw [List.drop_eq_getElem_cons hlast]
      rfl
    refine ⟨Y.conj, ?_, hbra Y (fun _ => by rw [er, ok_bind, f3, ok_bind, f4]), ?_⟩
    · rw [hX, List.drop_eq_getElem_cons (show n + 1 < (List.replicate L d).length by simp; omega)]
      exact ⟨m, by rw [List.getElem_replicate]; exact hY, h3⟩
    · intro s hs c hc
      rw [hX, List.drop_eq_getElem_cons hlast]
      match s, hs with
      | [], hs => exact absurd hs.length_eq (by simp; omega)
      | s :: ss, hs =>
        rw [amp_cons, amp_cons, Finset.mul_sum, dim2 hB, dim2 (show Y.conj.shape = _ from hY)]
        refine Finset.sum_congr rfl fun e _ => ?_
        rw [show Y.conj.val [s, c, e] = star (Y.val [s, c, e]) from rfl, hYv s c hc e, star_mul', ← mul_assoc]
        congr 2
        · rw [star_inv₀]
          exact congrArg _ (Complex.conj_ofReal _)
        · exact star_star _
  · have hd : x.data.drop (n + 1) = [] := List.drop_eq_nil_of_le (by omega)
    have hd' : (List.replicate L d).drop (n + 1) = [] := List.drop_eq_nil_of_le (by simp; omega)
    have hb := hbra (zerosND []) (fun h => absurd h hlast)
    have hq : q = 1 := by rw [hd, hd'] at h3; exact h3
    subst hq
    have h1 := E.right 0 (by omega) 0 (by omega)
    rw [hd, hd', rightEnv_nil] at h1
    simp only [if_true] at h1
    refine ⟨(zerosND []).conj, by rw [hd] at h3 ⊢; exact h3, hb, ?_⟩
    intro s hs c hc
    obtain rfl : c = 0 := by omega
    rw [hd, ← h1]
    simp

/-- **one site**: the projector applied to the environment of the site in `H ψ` -/
theorem dAdtFullSite_ok {inv : ND ℂ → Py (ND ℂ)} (hinv : InvLaw inv) (O : SetOrder) {x : FMPS ℂ} {L d n p q : ℕ} (hx : x.Holds (List.replicate L d))
    (hn : n < x.data.length) (h1 : MpsChain ((List.replicate L d).take n) (x.data.take n) 1 p)
    (h3 : MpsChain ((List.replicate L d).drop (n + 1)) (x.data.drop (n + 1)) q 1) {ls rs prs : List (ND ℂ)} {l r pr : ND ℂ} {mu rho : ℕ → ℝ}
    (E : EnvCut (List.replicate L d) x.data ls rs (n + 1) q l r mu rho) (hpr : pyGet prs n = .ok pr) (hprs : pr.shape = [d, p, d, p])
    {H : ND ℂ} (hH : H.shape = [d ^ L, d ^ L]) :
    ∃ B, FMPS.dAdtFullSite inv O x rs prs H n = .ok B ∧ B.shape = [d, p, q] ∧ ∀ s a, ∀ c < q, B.val [s, a, c] =
      -Complex.I * ∑ t ∈ range d, ∑ b ∈ range p, pr.val [s, a, t, b] * (envAmp ((List.replicate L d).take n) (x.data.take n)
        ((List.replicate L d).drop (n + 1)) (x.data.drop (n + 1)) (fullAct (List.replicate L d) H (psi x.data)) t b c * (rho c : ℂ)⁻¹) := by
  obtain ⟨hlen, hxL, hxd⟩ := hx.rep_L
  have hxd := hxd (by omega)
  obtain ⟨X, hX, eX, hXv⟩ := fullBra_ok hinv hx hn h3 E hpr
  obtain ⟨H', eH, hH', hHv⟩ := reshape_op (k := L) hH
  have hcut := replicate_cut (L := L) (d := d) (i := n) (by omega)
  obtain ⟨lab1, lab2⟩ := fullLinks_labels (L := L) (n := n) (by omega)
  obtain ⟨R, eR, hR, hRv⟩ := nc_broken O (As := x.data) h1 hX (by rw [← hcut]; exact hx.chain) hprs (H := H') (by rw [← hcut]; exact hH') rfl lab1 lab2
    (by simp; omega) (by simp; omega) (by simp; omega) (by simp; omega) (by simp; omega) (by simp; omega)
  refine ⟨R.smul (-Complex.I), ?_, hR, ?_⟩
  · unfold FMPS.dAdtFullSite
    rw [hxL, hxd, eH, ok_bind, fullLinks_eq (by omega), ok_bind, eX, ok_bind]
    simp only [List.append_assoc, List.cons_append, List.nil_append] at eR ⊢
    rw [eR, ok_bind]
  · intro s a c hc
    show -Complex.I * R.val [s, a, c] = _
    rw [hRv s a c hc]
    congr 1
    refine Finset.sum_congr rfl fun t ht => Finset.sum_congr rfl fun b _ => ?_
    congr 1
    unfold envAmp
    rw [← sumIdx_mul_right]
    refine sumIdx_congr fun s1 hs1 => ?_
    rw [← sumIdx_mul_right]
    refine sumIdx_congr fun s2 hs2 => ?_
    have hin : InB (List.replicate L d) (s1 ++ t :: s2) := by
      rw [hcut]
      exact hs1.append ⟨Finset.mem_range.1 ht, hs2⟩
    rw [hXv s2 hs2 c hc, star_mul', ← hcut, fullAct]
    beta_reduce
    rw [sumIdx_congr (f := fun t' => H'.val (s1 ++ t :: s2 ++ t') * psi x.data t') fun t' ht' => by rw [hHv _ t' hin ht']]
    rw [star_inv₀, show star (rho c : ℂ) = (rho c : ℂ) from Complex.conj_ofReal _]
    ring

end Xmps
