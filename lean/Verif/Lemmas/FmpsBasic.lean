import Verif.Lemmas.Chain
import Verif.Model.Fmps
import Verif.Props.Ncon

/-! # Evaluation of the `fMPS` primitives on well-formed chains -/

namespace Xmps

open Finset Xmps.Spec Xmps.Ncon

variable {K : Type}

/-! ### evaluating an `ncon` call with fixed labels -/

namespace Ncon

/-- dimension table of a labelling -/
def dimOf (l : List (ℤ × ℕ)) : ℤ → ℕ := fun x => (l.lookup x).getD 0

theorem nc_eval [CommSemiring K] (O : SetOrder) {AA : List (ND K)} {v : List (List ℤ)} (dim : ℤ → ℕ)
    (P F : List ℤ) (h : WellLabelled AA v dim P F) (hP : P.Pairwise (· < ·))
    (hF : F.Pairwise (· > ·)) :
    ∃ R, nc O AA v = .ok R ∧ R.shape = F.map dim ∧
      ∀ idx, idx.length = F.length → R.val idx = labelSum P dim (netTerm AA v) (assign F idx) := by
  obtain ⟨R, P', hR, _, hs, hv⟩ := nconBody_spec O h false
  have hne : v ≠ [] := by
    rintro rfl
    exact h.nonempty (List.length_eq_zero_iff.1 h.shapes.length_eq)
  refine ⟨R, ?_, hs, fun idx hl => ?_⟩
  · unfold nc
    rw [ncon_einsum_default O h hP hF]
    obtain ⟨l, v', rfl⟩ := List.exists_cons_of_ne_nil hne
    unfold ncon nconEff
    simp only [VArg.toList, ok_bind, Option.getD_some, TArg.toList, hR]
    rfl
  · rw [← hv, map_assign _ _ h.nodupF hl]

end Ncon

/-! ### constructor -/

theorem mapM_pyMax_ok : ∀ (data : List (ND K)), (∀ A ∈ data, ∃ d l r, A.shape = [d, l, r]) →
    ∃ ms : List ℕ, data.mapM (fun x => pyMax x.shape.tail) = .ok ms ∧ ms.length = data.length
  | [], _ => ⟨[], rfl, rfl⟩
  | A :: data, h => by
    obtain ⟨ms, hms, hl⟩ := mapM_pyMax_ok data (fun B hB => h B (by simp [hB]))
    obtain ⟨d, l, r, hA⟩ := h A (by simp)
    refine ⟨max l r :: ms, ?_, by simp [hl]⟩
    rw [List.mapM_cons, hms]
    simp [hA, pyMax]

theorem bondDimension_ok {data : List (ND K)} (hne : data ≠ []) (h : ∀ A ∈ data, ∃ d l r, A.shape = [d, l, r]) :
    ∃ D, FMPS.bondDimension data = .ok D := by
  obtain ⟨ms, hms, hl⟩ := mapM_pyMax_ok data h
  have hms0 : ms ≠ [] := by
    rintro rfl
    exact hne (List.length_eq_zero_iff.1 hl.symm)
  obtain ⟨m, ms', rfl⟩ := List.exists_cons_of_ne_nil hms0
  exact ⟨_, by unfold FMPS.bondDimension; rw [hms]; rfl⟩

theorem Spec.MpsChain.shapes : ∀ {ds : List ℕ} {As : List (ND K)} {l r : ℕ}, MpsChain ds As l r →
    ∀ A ∈ As, ∃ d l r, A.shape = [d, l, r]
  | [], [], _, _, _ => by simp
  | _ :: _, A :: As, _, _, h => by
    obtain ⟨m, hA, h⟩ := h
    intro B hB
    rcases List.mem_cons.1 hB with rfl | hB
    · exact ⟨_, _, _, hA⟩
    · exact h.shapes B hB
  | [], _ :: _, _, _, h => by simp at h
  | _ :: _, [], _, _, h => by simp at h

theorem init_ok {data : List (ND K)} (hne : data ≠ []) (h : ∀ A ∈ data, ∃ d l r, A.shape = [d, l, r])
    (d : Option ℕ) :
    ∃ x : FMPS K, FMPS.init data d = .ok x ∧ x.data = data ∧ x.L = data.length ∧
      x.d = d.getD (data.head hne).shape.headI ∧
      x.canonical = false ∧ x.orthogonal = false ∧ x.oc = none ∧ x.norm_ = none := by
  obtain ⟨D, hD⟩ := bondDimension_ok hne h
  obtain ⟨A, As, rfl⟩ := List.exists_cons_of_ne_nil hne
  obtain ⟨d0, l, r, hA⟩ := h A (by simp)
  cases d with
  | some d =>
    refine ⟨_, by simp only [FMPS.init, ok_bind, hD]; rfl, rfl, rfl, rfl, rfl, rfl, rfl, rfl⟩
  | none =>
    refine ⟨_, by simp only [FMPS.init, ok_bind, hD, pyGet_cons_zero, hA]; rfl, rfl, rfl, ?_, rfl, rfl, rfl, rfl⟩
    simp [hA]

/-! ### an object that holds a chain -/

/-- The object holds a chain with local dimensions `ds`, and its `L` and `d` are those of the data. -/
structure FMPS.Holds (x : FMPS K) (ds : List ℕ) : Prop where
  chain : MpsChain ds x.data 1 1
  ne : ds ≠ []
  len : x.L = ds.length
  d : x.d = ds.headI

theorem FMPS.Holds.data_ne {x : FMPS K} {ds : List ℕ} (h : x.Holds ds) : x.data ≠ [] := by
  intro e
  have := h.chain.length_eq
  rw [e] at this
  exact h.ne (List.length_eq_zero_iff.1 this.symm)

theorem init_holds {data : List (ND K)} {ds : List ℕ} (h : MpsChain ds data 1 1) (hne : ds ≠ [])
    (d : Option ℕ) (hd : d = none ∨ d = some ds.headI) :
    ∃ x, FMPS.init data d = .ok x ∧ x.data = data ∧ x.Holds ds ∧
      x.canonical = false ∧ x.orthogonal = false ∧ x.oc = none ∧ x.norm_ = none := by
  have hne' : data ≠ [] := by
    rintro rfl
    exact hne (List.length_eq_zero_iff.1 h.length_eq.symm)
  obtain ⟨x, hx, h1, h2, h3, h4⟩ := init_ok hne' h.shapes d
  refine ⟨x, hx, h1, ⟨h1 ▸ h, hne, by rw [h2, h.length_eq], ?_⟩, h4⟩
  rw [h3]
  rcases hd with rfl | rfl
  · obtain ⟨A, As, rfl⟩ := List.exists_cons_of_ne_nil hne'
    obtain ⟨e, ds, rfl⟩ := List.exists_cons_of_ne_nil hne
    obtain ⟨m, hA, _⟩ := h
    simp [hA]
  · rfl

/-! ### recombine -/

/-- the matrices `A_k[s_k]` -/
def slicesOf (As : List (ND K)) (ss : List ℕ) : List (ND K) :=
  List.zipWith (fun A s => ⟨A.shape.tail, fun idx => A.val (s :: idx)⟩) As ss

theorem slices_ok : ∀ {ds : List ℕ} {As : List (ND K)} {ss : List ℕ} {l r : ℕ} (pre : List ℕ),
    MpsChain ds As l r → InB ds ss →
    ((As.zipIdx pre.length).mapM fun (p : ND K × ℕ) => do
      let i ← pyGet (pre ++ ss) p.2
      p.1.slice0 i) = .ok (slicesOf As ss)
  | [], [], [], _, _, _, _, _ => rfl
  | d :: ds, A :: As, s :: ss, l, r, pre, h, hb => by
    obtain ⟨m, hA, h⟩ := h
    have ih := slices_ok (pre ++ [s]) h hb.2
    rw [List.zipIdx_cons, List.mapM_cons]
    have e1 : pyGet (pre ++ s :: ss) pre.length = .ok s := by simp [pyGet]
    simp only [e1, ok_bind, ND.slice0_ok hA hb.1]
    have e2 : (pre ++ [s]).length = pre.length + 1 := by simp
    have e3 : pre ++ [s] ++ ss = pre ++ s :: ss := by simp
    rw [e2, e3] at ih
    rw [ih]
    simp [slicesOf, hA]
  | [], _ :: _, _, _, _, _, h, _ => by simp at h
  | _ :: _, [], _, _, _, _, h, _ => by simp at h
  | _ :: _, _ :: _, [], _, _, _, _, h => by simp at h
  | [], [], _ :: _, _, _, _, _, h => by simp at h

theorem fold_slices [CommSemiring K] : ∀ {ds : List ℕ} {As : List (ND K)} {ss : List ℕ} {m r : ℕ} (l : ℕ) (acc : ND K),
    MpsChain ds As m r → InB ds ss → acc.shape = [l, m] →
    ∃ M, (slicesOf As ss).foldlM (fun acc x => acc.matmul x) acc = .ok M ∧ M.shape = [l, r] ∧
      ∀ i j, j < r → M.val [i, j] = ∑ c ∈ range m, acc.val [i, c] * amp As ss c j
  | [], [], [], m, r, l, acc, h, _, hacc => by
    have : m = r := h
    subst this
    refine ⟨acc, rfl, hacc, fun i j hj => ?_⟩
    simp only [amp_nil, mul_ite, mul_one, mul_zero]
    rw [Finset.sum_ite_eq']
    simp [hj]
  | d :: ds, A :: As, s :: ss, m, r, l, acc, h, hb, hacc => by
    obtain ⟨n, hA, h⟩ := h
    set B : ND K := ⟨A.shape.tail, fun idx => A.val (s :: idx)⟩ with hB
    have hBs : B.shape = [m, n] := by simp [hB, hA]
    obtain ⟨acc', hmm, hs', hv'⟩ := ND.matmul22 hacc hBs
    obtain ⟨M, hM, hs, hv⟩ := fold_slices l acc' h hb.2 hs'
    refine ⟨M, ?_, hs, fun i j hj => ?_⟩
    · rw [slicesOf, List.zipWith_cons_cons, List.foldlM_cons, ← hB, hmm]
      exact hM
    · rw [hv i j hj]
      simp only [amp_cons, dim2 hA, hv', hB]
      simp only [Finset.sum_mul, Finset.mul_sum]
      rw [Finset.sum_comm]
      exact Finset.sum_congr rfl fun c _ => Finset.sum_congr rfl fun e _ => by ring
  | [], _ :: _, _, _, _, _, _, h, _, _ => by simp at h
  | _ :: _, [], _, _, _, _, _, h, _, _ => by simp at h
  | _ :: _, _ :: _, [], _, _, _, _, _, h, _ => by simp at h
  | [], [], _ :: _, _, _, _, _, _, h, _ => by simp at h

theorem amplitudeAt_ok [CommSemiring K] {ds : List ℕ} {As : List (ND K)} {ss : List ℕ} (h : MpsChain ds As 1 1)
    (hne : ds ≠ []) (hb : InB ds ss) : FMPS.amplitudeAt As ss = .ok (psi As ss) := by
  have hAs : As ≠ [] := by
    rintro rfl
    exact hne (List.length_eq_zero_iff.1 h.length_eq.symm)
  have h1 := slices_ok [] h hb
  simp only [List.length_nil, List.nil_append] at h1
  rw [psi_eq_amp h hAs hb.length_eq]
  obtain ⟨A, As, rfl⟩ := List.exists_cons_of_ne_nil hAs
  obtain ⟨d, ds, rfl⟩ := List.exists_cons_of_ne_nil hne
  obtain ⟨s, ss, rfl⟩ : ∃ s t, ss = s :: t := by
    cases ss with
    | nil => simp at hb
    | cons s t => exact ⟨s, t, rfl⟩
  obtain ⟨m, hA, h⟩ := h
  unfold FMPS.amplitudeAt
  simp only [h1, ok_bind, slicesOf, List.zipWith_cons_cons]
  obtain ⟨M, hM, hs, hv⟩ := fold_slices 1 (⟨A.shape.tail, fun idx => A.val (s :: idx)⟩ : ND K) h hb.2 (by simp [hA])
  unfold slicesOf at hM
  simp only [hM, ok_bind, ND.slice0_ok hs Nat.zero_lt_one]
  have e : (⟨[1], fun idx => M.val (0 :: idx)⟩ : ND K).slice0 0 = .ok ⟨[], fun idx => M.val (0 :: 0 :: idx)⟩ :=
    ND.slice0_ok rfl Nat.zero_lt_one
  simp only [e, ok_bind]
  rw [hv 0 0 Nat.zero_lt_one, amp_cons, dim2 hA]

theorem recombine_ok [CommSemiring K] {x : FMPS K} {d L : ℕ} (h : x.Holds (List.replicate L d)) :
    ∃ R, x.recombine = .ok R ∧ R.shape = List.replicate L d ∧
      ∀ s, InB (List.replicate L d) s → R.val s = psi x.data s := by
  have hL : x.L = L := by rw [h.len]; simp
  have hL0 : L ≠ 0 := by
    rintro rfl
    exact h.ne rfl
  have hd : x.d = d := by
    rw [h.d]
    obtain ⟨m, rfl⟩ := Nat.exists_eq_succ_of_ne_zero hL0
    rfl
  unfold FMPS.recombine
  rw [hL, hd]
  exact ND.build_ok fun idx hi => amplitudeAt_ok h.chain h.ne hi

/-! ### the overlap loop -/

theorem overlapStep_ok [CommSemiring K] [StarRing K] (O : SetOrder) {F A B : ND K} {l l' d r r' : ℕ}
    (hF : F.shape = [l, l']) (hA : A.shape = [d, l, r]) (hB : B.shape = [d, l', r']) :
    ∃ R, FMPS.overlapStep O F A B = .ok R ∧ R.shape = [r, r'] ∧
      ∀ a b, R.val [a, b] = ∑ i ∈ range l, ∑ j ∈ range l', ∑ s ∈ range d,
        F.val [i, j] * (A.val [s, i, a] * star (B.val [s, j, b])) := by
  obtain ⟨R, hR, hs, hv⟩ := nc_eval O (AA := [F, A, B.conj]) (v := [[1, 2], [3, 1, -1], [3, 2, -2]])
    (dimOf [(1, l), (2, l'), (3, d), (-1, r), (-2, r')]) [1, 2, 3] [-1, -2]
    ⟨by simp, by simp [hF, hA, hB, dimOf, List.lookup], by simp, by simp, by decide, by decide, by decide,
      by decide, by decide⟩ (by decide) (by decide)
  refine ⟨R, hR, by simp [hs, dimOf, List.lookup], fun a b => ?_⟩
  rw [hv _ rfl]
  simp [labelSum, netTerm, assign, dimOf, List.lookup, Function.update]

theorem overlap_fold [CommSemiring K] [StarRing K] (O : SetOrder) :
    ∀ {ds : List ℕ} {As Bs : List (ND K)} {l l' r r' : ℕ} (F : ND K),
    MpsChain ds As l r → MpsChain ds Bs l' r' → F.shape = [l, l'] →
    ∃ R, (As.zip Bs).foldlM (fun F (p : ND K × ND K) => FMPS.overlapStep O F p.1 p.2) F = .ok R ∧
      R.shape = [r, r'] ∧
      ∀ a b, a < r → b < r' → R.val [a, b] = ∑ i ∈ range l, ∑ j ∈ range l',
        F.val [i, j] * sumIdx ds fun s => amp As s i a * star (amp Bs s j b)
  | [], [], [], l, l', r, r', F, h, h', hF => by
    have e1 : l = r := h
    have e2 : l' = r' := h'
    subst e1 e2
    refine ⟨F, rfl, hF, fun a b ha hb => ?_⟩
    simp only [sumIdx_nil, amp_nil]
    rw [Finset.sum_eq_single a]
    · rw [Finset.sum_eq_single b]
      · simp
      · intro j _ hj; simp [hj]
      · intro hb'; simp at hb'; omega
    · intro i _ hi; simp [hi]
    · intro ha'; simp at ha'; omega
  | d :: ds, A :: As, B :: Bs, l, l', r, r', F, h, h', hF => by
    obtain ⟨m, hA, h⟩ := h
    obtain ⟨m', hB, h'⟩ := h'
    obtain ⟨F', hF', hs', hv'⟩ := overlapStep_ok O hF hA hB
    obtain ⟨R, hR, hs, hv⟩ := overlap_fold O F' h h' hs'
    refine ⟨R, ?_, hs, fun a b ha hb => ?_⟩
    · rw [List.zip_cons_cons, List.foldlM_cons]
      simp only [hF', ok_bind]
      exact hR
    · rw [hv a b ha hb]
      simp only [hv', sumIdx_cons, amp_cons, dim2 hA, dim2 hB, star_sum, star_mul']
      simp only [Finset.sum_mul, Finset.mul_sum, sumIdx_finset_sum, ← sumIdx_mul_left]
      -- Σ_{c,e,i,j,s} = Σ_{i,j,s,c,e}
      have key : ∀ (G : ℕ → ℕ → ℕ → ℕ → ℕ → K),
          ∑ c ∈ range m, ∑ e ∈ range m', ∑ i ∈ range l, ∑ j ∈ range l', ∑ s ∈ range d, G i j s c e =
          ∑ i ∈ range l, ∑ j ∈ range l', ∑ s ∈ range d, ∑ c ∈ range m, ∑ e ∈ range m', G i j s c e := by
        intro G
        have h1 : ∀ c, ∑ e ∈ range m', ∑ i ∈ range l, ∑ j ∈ range l', ∑ s ∈ range d, G i j s c e =
            ∑ i ∈ range l, ∑ j ∈ range l', ∑ s ∈ range d, ∑ e ∈ range m', G i j s c e := by
          intro c
          rw [Finset.sum_comm]
          refine Finset.sum_congr rfl fun i _ => ?_
          rw [Finset.sum_comm]
          refine Finset.sum_congr rfl fun j _ => ?_
          rw [Finset.sum_comm]
        simp only [h1]
        rw [Finset.sum_comm]
        refine Finset.sum_congr rfl fun i _ => ?_
        rw [Finset.sum_comm]
        refine Finset.sum_congr rfl fun j _ => ?_
        rw [Finset.sum_comm]
      rw [key]
      refine Finset.sum_congr rfl fun i _ => Finset.sum_congr rfl fun j _ => Finset.sum_congr rfl fun s _ => ?_
      rw [Finset.sum_comm]
      refine Finset.sum_congr rfl fun e _ => Finset.sum_congr rfl fun c _ => ?_
      refine sumIdx_congr fun idx _ => ?_
      ring
  | [], _ :: _, _, _, _, _, _, _, h, _, _ => by simp at h
  | _ :: _, [], _, _, _, _, _, _, h, _, _ => by simp at h
  | [], [], _ :: _, _, _, _, _, _, _, h, _ => by simp at h
  | _ :: _, _ :: _, [], _, _, _, _, _, _, h, _ => by simp at h

end Xmps
