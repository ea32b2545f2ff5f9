import Verif.Lemmas.Expect
import Verif.Props.LapackExists

/-!
# C23, C24: expectation values

`E`, `E_k`, `E_L`, `rho` against the state vector.  `Honest x ds`: the flags of the object tell the
truth about its tensors; this is the invariant that the gauge changing methods keep and that
`post_select` and item assignment break.
-/

namespace Xmps

open Finset Xmps.Spec Xmps.Ncon

/-- The chain is a non-zero state and the attribute `oc`, when it names a site, is the orthogonality
centre of a normalised chain. -/
structure FMPS.Honest (x : FMPS ℂ) (ds : List ℕ) : Prop where
  holds : x.Holds ds
  pos : PosDims x.data
  nonzero : ∃ s, InB ds s ∧ psi x.data s ≠ 0
  centre : ∀ c, x.oc = some c → c < ds.length → CenteredAt x.data c ∧ braket ds x.data x.data = 1
  flagged : x.canonical = true ∨ x.orthogonal = true → x.oc ≠ none

/-- `y` holds the same state up to a non-zero factor -/
def SameRay (ds : List ℕ) (As Bs : List (ND ℂ)) : Prop :=
  ∃ c : ℂ, c ≠ 0 ∧ ∀ s, InB ds s → psi As s = c * psi Bs s

theorem SameRay.refl (ds : List ℕ) (As : List (ND ℂ)) : SameRay ds As As := ⟨1, by simp, by simp⟩

theorem SameRay.trans {ds : List ℕ} {As Bs Cs : List (ND ℂ)} (h : SameRay ds As Bs) (h' : SameRay ds Bs Cs) :
    SameRay ds As Cs := by
  obtain ⟨c, hc, h⟩ := h
  obtain ⟨c', hc', h'⟩ := h'
  exact ⟨c * c', mul_ne_zero hc hc', fun s hs => by rw [h s hs, h' s hs, mul_assoc]⟩

theorem SameRay.nonzero {ds : List ℕ} {As Bs : List (ND ℂ)} (h : SameRay ds As Bs)
    (hn : ∃ s, InB ds s ∧ psi As s ≠ 0) : ∃ s, InB ds s ∧ psi Bs s ≠ 0 := by
  obtain ⟨c, _, h⟩ := h
  obtain ⟨s, hs, hne⟩ := hn
  exact ⟨s, hs, fun e => hne (by rw [h s hs, e, mul_zero])⟩

theorem InB.replace {ds : List ℕ} {i k : ℕ} {s t : List ℕ} (hs : InB ds s) (ht : InB ((ds.drop i).take k) t)
    (hik : i + k ≤ ds.length) : InB ds (s.take i ++ (t ++ s.drop (i + k))) := by
  have e1 : ds = ds.take i ++ ((ds.drop i).take k ++ (ds.drop i).drop k) := by simp
  rw [e1] at hs
  obtain ⟨s1, s', rfl, h1, hs⟩ := hs.split2
  obtain ⟨s0, s2, rfl, h0, h2⟩ := hs.split2
  have l1 : s1.length = i := by rw [h1.length_eq]; simp; omega
  have l0 : s0.length = k := by rw [h0.length_eq]; simp only [List.length_take, List.length_drop]; omega
  rw [show (s1 ++ (s0 ++ s2)).take i = s1 by rw [← l1, List.take_left],
    show (s1 ++ (s0 ++ s2)).drop (i + k) = s2 by rw [← l1, ← l0, ← List.drop_drop, List.drop_left, List.drop_left]]
  rw [e1]
  exact h1.append (ht.append h2)

/-- normalised expectation values only depend on the ray -/
theorem SameRay.opExpect {ds : List ℕ} {As Bs : List (ND ℂ)} (h : SameRay ds As Bs) {i k : ℕ}
    (hik : i + k ≤ ds.length) (hb : braket ds Bs Bs = 1) (G : List ℕ → List ℕ → ℂ) :
    Spec.opExpect ds Bs i k G = Spec.opExpect ds As i k G / braket ds As As := by
  obtain ⟨c, hc, h⟩ := h
  have e1 : Spec.opExpect ds As i k G = star c * c * Spec.opExpect ds Bs i k G := by
    unfold Spec.opExpect
    rw [← sumIdx_mul_left]
    refine sumIdx_congr fun s hs => ?_
    rw [← sumIdx_mul_left]
    refine sumIdx_congr fun t ht => ?_
    rw [h s hs, h _ (hs.replace ht hik), star_mul']
    ring
  have e2 : braket ds As As = star c * c := by
    rw [← mul_one (star c * c), ← hb]
    unfold braket
    rw [← sumIdx_mul_left]
    refine sumIdx_congr fun s hs => ?_
    rw [h s hs, star_mul']
    ring
  have hz : star c * c ≠ 0 := mul_ne_zero (star_ne_zero.2 hc) hc
  rw [e1, e2, mul_div_cancel_left₀ _ hz]

theorem FMPS.mixedOrthogonalise_honest {qr rq : ND ℂ → Py (ND ℂ × ND ℂ)} (hqr : QRLaw qr) (hrq : RQLaw rq)
    {x : FMPS ℂ} {ds : List ℕ} (hx : x.Holds ds) (hp : PosDims x.data)
    (hnz : ∃ s, InB ds s ∧ psi x.data s ≠ 0) {oc : ℕ} (hoc : oc < ds.length) :
    ∃ y, x.mixedOrthogonalise qr rq oc = .ok y ∧ y.Honest ds ∧ y.oc = some oc ∧ CenteredAt y.data oc ∧
      braket ds y.data y.data = 1 ∧ SameRay ds x.data y.data := by
  obtain ⟨y, As1, A, As2, n, c, hy, h1, h2, h3, h4, h5, h6, h7, h8, h9, h10, h11, h12, h13, -, -⟩ :=
    FMPS.mixedOrthogonalise_spec hqr hrq hx hp hnz hoc
  have hray : SameRay ds x.data y.data := ⟨c, h12, h13⟩
  have hcen : CenteredAt y.data oc := by
    refine ⟨by rw [h1.chain.length_eq]; exact hoc, ?_, ?_⟩
    · rw [h3, ← h4, List.take_left]; exact h5
    · rw [h3, ← h4, List.drop_append, List.drop_of_length_le (by omega)]
      simpa using h6
  refine ⟨y, hy, ⟨h1, h2, hray.nonzero hnz, ?_, by simp [h8]⟩, h8, hcen, h11, hray⟩
  rintro c hc -
  rw [h8] at hc
  cases hc
  exact ⟨hcen, h11⟩

/-- The test before an expectation value puts the centre on one of the sites. -/
theorem FMPS.Honest.recenter {qr rq : ND ℂ → Py (ND ℂ × ND ℂ)} (hqr : QRLaw qr) (hrq : RQLaw rq)
    {x : FMPS ℂ} {ds : List ℕ} (hx : x.Honest ds) {sites : List ℕ} (hne : sites ≠ []) (hs : ∀ i ∈ sites, i < ds.length) :
    ∃ y c, x.recenter qr rq sites = .ok y ∧ y.Honest ds ∧ c ∈ sites ∧ CenteredAt y.data c ∧
      braket ds y.data y.data = 1 ∧ SameRay ds x.data y.data := by
  unfold FMPS.recenter
  by_cases h : (x.canonical = false ∧ x.orthogonal = false) ∨ (∃ c, x.oc = some c ∧ c ∉ sites)
  · rw [if_pos h]
    obtain ⟨i, sites, rfl⟩ := List.exists_cons_of_ne_nil hne
    obtain ⟨y, hy, h1, -, h2, h3, h4⟩ := FMPS.mixedOrthogonalise_honest hqr hrq hx.holds hx.pos hx.nonzero (hs i (by simp))
    exact ⟨y, i, by rw [pyGet_cons_zero, ok_bind, hy], h1, by simp, h2, h3, h4⟩
  · rw [if_neg h]
    push Not at h
    obtain ⟨h1, h2⟩ := h
    have hoc : x.oc ≠ none := by
      apply hx.flagged
      cases hc : x.canonical
      · right; simpa using h1 hc
      · left; rfl
    obtain ⟨c, hc⟩ := Option.ne_none_iff_exists'.1 hoc
    have hm := h2 c hc
    obtain ⟨h3, h4⟩ := hx.centre c hc (hs c hm)
    exact ⟨x, c, rfl, hx, hm, h3, h4, SameRay.refl _ _⟩

/-! ### one site -/

theorem ncon_E (O : SetOrder) {M op : ND ℂ} {d m n : ℕ} (hM : M.shape = [d, m, n]) (ho : op.shape = [d, d]) :
    ∃ R, ncon O (.many [M, M.conj, op]) (.nested [[1, 3, 4], [2, 3, 4], [1, 2]]) (some [3, 4, 1, 2]) none false = .ok R ∧
      R.val [] = ∑ a ∈ range m, ∑ b ∈ range n, ∑ s ∈ range d, ∑ t ∈ range d,
        M.val [s, a, b] * (star (M.val [t, a, b]) * op.val [s, t]) := by
  have hW : WellLabelled [M, M.conj, op] [[1, 3, 4], [2, 3, 4], [1, 2]]
      (dimOf [(1, d), (2, d), (3, m), (4, n)]) [3, 4, 1, 2] [] :=
    ⟨by simp, by simp [ND.conj, hM, ho, dimOf, List.lookup], by simp, by simp, by decide, by decide, by decide,
      by decide, by decide⟩
  obtain ⟨R, P', hR, -, hs, hv⟩ := nconBody_spec O hW false
  have hv := hv (fun _ => 0)
  refine ⟨R, ?_, ?_⟩
  · unfold ncon nconEff
    have : (none : Option (List ℤ)).getD (createForder [[1, 3, 4], [2, 3, 4], [1, 2]]) = [] := by simp [createForder]
    simp only [VArg.toList, ok_bind, Option.getD_some, TArg.toList, this, hR]
    rfl
  · simp only [List.map_nil] at hv
    rw [hv]
    simp [labelSum, netTerm, dimOf, List.lookup, Function.update, ND.conj]

/-- `E` on an object with its centre at `site`: the expectation value of the *transposed* matrix. -/
theorem FMPS.E_spec {qr rq : ND ℂ → Py (ND ℂ × ND ℂ)} (hqr : QRLaw qr) (hrq : RQLaw rq) (O : SetOrder)
    {x : FMPS ℂ} {ds : List ℕ} (hx : x.Honest ds) {op : ND ℂ} {site d : ℕ} (hs : site < ds.length)
    (hd : ds.getD site 0 = d) (ho : op.shape = [d, d]) :
    ∃ v y, x.E qr rq O op site = .ok (v, y) ∧ y.Honest ds ∧ SameRay ds x.data y.data ∧
      v = (opExpect ds x.data site 1 (fun s t => matElem [d] op t s) / braket ds x.data x.data).re := by
  obtain ⟨y, c, hy, h1, hc, h2, h3, h4⟩ := hx.recenter hqr hrq (sites := [site]) (by simp) (by simpa using hs)
  have hc : c = site := by simpa using hc
  subst hc
  obtain ⟨ds1, ds0, ds2, As1, As0, As2, m, n, e1, e2, l1, l2, l3, l4, c1, c0, c2⟩ :=
    chain_block (i := c) (k := 1) h1.holds.chain (by omega)
  obtain ⟨d', rfl⟩ : ∃ d', ds0 = [d'] := List.length_eq_one_iff.1 l3
  obtain ⟨M, rfl⟩ : ∃ M, As0 = [M] := List.length_eq_one_iff.1 l4
  have hd' : d' = d := by rw [← hd, e1, ← l1]; simp
  subst hd'
  obtain ⟨n', hM, hn'⟩ := c0
  have hn' : n' = n := hn'
  subst hn'
  obtain ⟨R, hR, hv⟩ := ncon_E O hM ho
  have hget : pyGet y.data c = .ok M := by rw [e2, ← l2]; simp [pyGet]
  refine ⟨(R.val []).re, y, ?_, h1, h4, ?_⟩
  · unfold FMPS.E
    rw [hy, ok_bind, hget, ok_bind, hR, ok_bind]
  · rw [← h4.opExpect (by omega) h3]
    obtain ⟨i1, i2⟩ := CenteredAt.block (e2 ▸ h2) (by omega) (by simp; omega)
    have := opExpect_block c1 (As0 := [M]) (ds0 := [d']) ⟨n', hM, rfl⟩ c2 (by simp) i1 i2 (fun s t => matElem [d'] op t s)
    rw [l1, show [d'].length = 1 from rfl, ← e1, ← e2] at this
    rw [this, hv]
    simp only [sumIdx_cons, sumIdx_nil]
    refine congrArg Complex.re ?_
    simp only [matElem, ravel_cons, ravel_nil, List.prod_nil, mul_one, add_zero]
    calc _ = ∑ a ∈ range m, ∑ b ∈ range n', ∑ s ∈ range d', ∑ t ∈ range d',
          star (M.val [s, a, b]) * (op.val [t, s] * M.val [t, a, b]) := by
          refine Finset.sum_congr rfl fun a _ => Finset.sum_congr rfl fun b _ => ?_
          rw [Finset.sum_comm]
          refine Finset.sum_congr rfl fun s _ => Finset.sum_congr rfl fun t _ => ?_
          ring
      _ = ∑ a ∈ range m, ∑ s ∈ range d', ∑ t ∈ range d', ∑ b ∈ range n',
          star (M.val [s, a, b]) * (op.val [t, s] * M.val [t, a, b]) := by
          refine Finset.sum_congr rfl fun a _ => ?_
          rw [Finset.sum_comm]
          refine Finset.sum_congr rfl fun s _ => Finset.sum_comm
      _ = ∑ s ∈ range d', ∑ t ∈ range d', ∑ a ∈ range m, ∑ b ∈ range n',
          star (M.val [s, a, b]) * (op.val [t, s] * M.val [t, a, b]) := by
          rw [Finset.sum_comm]
          refine Finset.sum_congr rfl fun s _ => Finset.sum_comm
      _ = _ := by
          refine Finset.sum_congr rfl fun s _ => Finset.sum_congr rfl fun t _ => Finset.sum_congr rfl fun a _ =>
            Finset.sum_congr rfl fun b hb => ?_
          rw [amp_single _ _ _ _ (by rw [dim2 hM]; simpa using hb), amp_single _ _ _ _ (by rw [dim2 hM]; simpa using hb)]

/-! ### several sites -/

/-- labels `1..k` -/
def physS (k : ℕ) : List ℤ := (List.range' 1 k).map fun (n : ℕ) => (n : ℤ)
/-- labels `k+1..2k` -/
def physT (k : ℕ) : List ℤ := (List.range' 1 k).map fun (n : ℕ) => (k + n : ℤ)

theorem physST (k : ℕ) : (List.range' 1 (2 * k)).map (fun (n : ℕ) => (n : ℤ)) = physS k ++ physT k := by
  rw [two_mul, ← List.range'_append, List.map_append]
  congr 1
  unfold physT
  rw [show 1 + 1 * k = k + 1 by omega, ← List.map_add_range', List.map_map]
  refine List.map_congr_left fun n _ => ?_
  simp

theorem links_nodup (k : ℕ) : (physS k ++ (physT k ++ ([(2 * k + 1 : ℤ), (3 * k + 1 : ℤ)] ++
    ((List.range' 2 (k - 1)).map (fun (n : ℕ) => (2 * k + n : ℤ)) ++
      (List.range' 2 (k - 1)).map (fun (n : ℕ) => (3 * k + n : ℤ)))))).Nodup ∨ k = 0 := by
  rcases Nat.eq_zero_or_pos k with h | h
  · exact .inr h
  left
  have inj : ∀ c : ℤ, Function.Injective (fun n : ℕ => (c + n : ℤ)) := fun c a b h => by simpa using h
  have inj0 : Function.Injective (fun n : ℕ => (n : ℤ)) := fun a b h => by simpa using h
  have nd : ∀ a n : ℕ, (List.range' a n).Nodup := fun a n => List.nodup_range'
  simp only [List.nodup_append, physS, physT, (nd _ _).map (inj _), (nd _ _).map inj0, List.mem_append, List.mem_map,
    List.mem_range'_1, List.nodup_cons, List.mem_cons, List.not_mem_nil, or_false, List.nodup_nil, not_false_eq_true,
    and_true, true_and]
  refine ⟨⟨⟨by omega, ?_, ?_⟩, ?_⟩, ?_⟩
  · rintro _ ⟨a, ha, rfl⟩ _ ⟨b, hb, rfl⟩; omega
  · rintro x (rfl | rfl) _ (⟨b, hb, rfl⟩ | ⟨b, hb, rfl⟩) <;> omega
  · rintro _ ⟨a, ha, rfl⟩ _ ((rfl | rfl) | ⟨b, hb, rfl⟩ | ⟨b, hb, rfl⟩) <;> omega
  · rintro _ ⟨a, ha, rfl⟩ _ (⟨b, hb, rfl⟩ | (rfl | rfl) | ⟨b, hb, rfl⟩ | ⟨b, hb, rfl⟩) <;> omega

/-- the contraction of a chain with its conjugate and a middle network through `links` -/
theorem nc_links (O : SetOrder) {ds : List ℕ} {As : List (ND ℂ)} {m n k : ℕ} (hk : 0 < k)
    (hA : MpsChain ds As m n) (hl : As.length = k) {MM : List (ND ℂ)} {w : List (List ℤ)} {G : List ℕ → List ℕ → ℂ}
    (hM : ∀ dim : ℤ → ℕ, (physS k).map dim = ds → (physT k).map dim = ds →
      List.Forall₂ (fun (A : ND ℂ) (l : List ℤ) => A.shape = l.map dim) MM w)
    (hw : ∀ x, w.flatten.count x = (physS k).count x + (physT k).count x)
    (hG : ∀ ρ, netTerm MM w ρ = G ((physS k).map ρ) ((physT k).map ρ)) :
    ∃ R, nc O (As.map ND.conj ++ MM ++ As) ((FMPS.linksOp k).take k ++ w ++ (FMPS.linksOp k).drop (k + 1)) = .ok R ∧
      R.val [] = sumIdx ds fun s => sumIdx ds fun t => ∑ a ∈ range m, ∑ b ∈ range n,
        star (amp As s a b) * (G s t * amp As t a b) := by
  have hne : As ≠ [] := by rintro rfl; simp at hl; omega
  obtain ⟨R, hR, -, hv⟩ := nc_sandwich O hA hne ((links_nodup k).resolve_right (by omega)) (by
      intro x hx
      simp only [physS, physT, List.mem_append, List.mem_map, List.mem_range'_1, List.mem_cons, List.not_mem_nil, or_false] at hx
      rcases hx with ⟨a, ha, rfl⟩ | ⟨a, ha, rfl⟩ | (rfl | rfl) | ⟨a, ha, rfl⟩ | ⟨a, ha, rfl⟩ <;> omega)
    (by simp [physS, hl]) (by simp [physT, hl]) (by simp [hl]; omega) (by simp [hl]; omega) hM hw hG
  refine ⟨R, ?_, hv⟩
  rw [← hR]
  congr 1
  have c1 : (chainL ((List.range' 1 k).map fun (n : ℕ) => (n : ℤ))
      ((2 * k + 1 : ℤ) :: (List.range' 2 (k - 1)).map (fun (n : ℕ) => (2 * k + n : ℤ)) ++ [(3 * k + 1 : ℤ)])).length = k := by
    rw [chainL_length (by simp; omega)]
    simp
  rw [linksOp_eq hk]
  congr 1
  · congr 1
    conv_lhs => rw [List.append_assoc]; arg 1; rw [← c1]
    rw [List.take_left]
    rfl
  · conv_lhs => arg 1; rw [← c1]
    rw [List.append_assoc, ← List.drop_drop, List.drop_left]
    rfl

theorem linksOp_split {k : ℕ} (hk : 0 < k) :
    (FMPS.linksOp k).take k ++ [physS k ++ physT k] ++ (FMPS.linksOp k).drop (k + 1) = FMPS.linksOp k ∧
      (FMPS.linksOp k).length = 2 * k + 1 ∧ pyGet (FMPS.linksOp k) k = .ok (physS k ++ physT k) := by
  have hlen : (FMPS.linksOp k).length = 2 * k + 1 := by simp [FMPS.linksOp]; omega
  have hget : (FMPS.linksOp k)[k]? = some (physS k ++ physT k) := by
    unfold FMPS.linksOp
    rw [List.append_assoc, List.getElem?_append_right (by simp)]
    simp [physST]
  refine ⟨?_, hlen, by simp [pyGet, hget]⟩
  have hk' : k < (FMPS.linksOp k).length := by omega
  rw [List.getElem?_eq_getElem hk', Option.some.injEq] at hget
  rw [← hget, List.append_assoc, List.singleton_append, ← List.drop_eq_getElem_cons, List.take_append_drop]

theorem reshape_op {d k : ℕ} {op : ND ℂ} (ho : op.shape = [d ^ k, d ^ k]) :
    ∃ op', op.reshape (List.replicate (2 * k) d) = .ok op' ∧ op'.shape = List.replicate k d ++ List.replicate k d ∧
      ∀ s t, InB (List.replicate k d) s → InB (List.replicate k d) t → op'.val (s ++ t) = matElem (List.replicate k d) op s t := by
  have e : List.replicate (2 * k) d = List.replicate k d ++ List.replicate k d := by
    rw [two_mul, List.replicate_add]
  refine ⟨_, by unfold ND.reshape; rw [if_pos]; simp [ND.size, ho, two_mul, pow_add], by simp [ND.reshapeR, e], fun s t hs ht => ?_⟩
  rw [ND.reshapeR, e]
  simp only [ho]
  have h1 : ravel (List.replicate k d ++ List.replicate k d) (s ++ t) = ravel [d ^ k, d ^ k] [ravel (List.replicate k d) s, ravel (List.replicate k d) t] := by
    rw [ravel_append _ _ hs.length_eq]
    simp
  rw [h1, unravel_ravel (by
    have a := ravel_lt hs
    have b := ravel_lt ht
    rw [List.prod_replicate] at a b
    exact ⟨a, b, trivial⟩)]
  rfl

theorem FMPS.Honest.range_sites {x : FMPS ℂ} {d L i k : ℕ} (hx : x.Honest (List.replicate L d)) (hik : i + k ≤ L) :
    (∀ j ∈ List.range' i k, j < (List.replicate L d).length) ∧ x.d = d ∧ 0 < L := by
  have hL : L ≠ 0 := by rintro rfl; exact hx.holds.ne rfl
  refine ⟨fun j hj => ?_, ?_, by omega⟩
  · rw [List.mem_range'_1] at hj
    simp; omega
  · rw [hx.holds.d]
    obtain ⟨L, rfl⟩ : ∃ L', L = L' + 1 := ⟨L - 1, by omega⟩
    simp [List.replicate_succ]

/-- the block of tensors of consecutive sites containing the orthogonality centre -/
theorem centre_block {y : FMPS ℂ} {d L i k c : ℕ} (hy : y.Honest (List.replicate L d)) (hk : 0 < k) (hik : i + k ≤ L)
    (hc : c ∈ List.range' i k) (hcen : CenteredAt y.data c) :
    ∃ Ms m n, (List.range' i k).mapM (pyGet y.data) = .ok Ms ∧ MpsChain (List.replicate k d) Ms m n ∧ Ms.length = k ∧
      (∀ G, opExpect (List.replicate L d) y.data i k G = sumIdx (List.replicate k d) fun s => sumIdx (List.replicate k d) fun t =>
        ∑ a ∈ range m, ∑ b ∈ range n, star (amp Ms s a b) * (G s t * amp Ms t a b)) ∧
      ∀ s t, InB (List.replicate k d) s → InB (List.replicate k d) t →
        redDens (List.replicate L d) y.data i k t s = ∑ a ∈ range m, ∑ b ∈ range n, amp Ms t a b * star (amp Ms s a b) := by
  have hlen := hy.holds.chain.length_eq
  rw [List.length_replicate] at hlen
  obtain ⟨ds1, ds0, ds2, As1, As0, As2, m, n, e1, e2, l1, l2, l3, l4, c1, c0, c2⟩ :=
    chain_block (i := i) (k := k) hy.holds.chain (by simpa using hik)
  have hd0 : ds0 = List.replicate k d := by
    rw [List.eq_replicate_iff]
    refine ⟨l3, fun b hb => List.eq_of_mem_replicate (n := L) ?_⟩
    rw [e1]
    simp [hb]
  rw [List.mem_range'_1] at hc
  obtain ⟨i1, i2⟩ := CenteredAt.block (e2 ▸ hcen) (by omega) (by omega)
  have hne : As0 ≠ [] := by rintro rfl; simp at l4; omega
  refine ⟨As0, m, n, ?_, hd0 ▸ c0, l4, fun G => ?_, fun s t hs ht => ?_⟩
  · rw [mapM_pyGet_range k i y.data (by omega), e2, ← l2, List.drop_left, ← l4, List.take_left]
  · have := opExpect_block c1 c0 c2 hne i1 i2 G
    rwa [l1, l3, ← e1, ← e2, hd0] at this
  · have := redDens_block c1 c0 c2 hne i1 i2 (hd0 ▸ hs) (hd0 ▸ ht)
    rwa [l1, l3, ← e1, ← e2] at this

/-- **C23** for `E_k`: on consecutive sites it is `⟨ψ|op|ψ⟩/⟨ψ|ψ⟩` (real part). -/
theorem FMPS.Ek_spec {qr rq : ND ℂ → Py (ND ℂ × ND ℂ)} (hqr : QRLaw qr) (hrq : RQLaw rq) (O : SetOrder)
    {x : FMPS ℂ} {d L i k : ℕ} (hx : x.Honest (List.replicate L d)) {op : ND ℂ} (hk : 0 < k) (hik : i + k ≤ L)
    (ho : op.shape = [d ^ k, d ^ k]) :
    ∃ v y, x.Ek qr rq O op (List.range' i k) = .ok (v, y) ∧ y.Honest (List.replicate L d) ∧
      SameRay (List.replicate L d) x.data y.data ∧
      v = (opExpect (List.replicate L d) x.data i k (matElem (List.replicate k d) op) /
        braket (List.replicate L d) x.data x.data).re := by
  obtain ⟨hs, hd, hL⟩ := hx.range_sites hik
  obtain ⟨y, c, hy, h1, hc, h2, h3, h4⟩ := hx.recenter hqr hrq (sites := List.range' i k)
    (by simp; omega) hs
  obtain ⟨Ms, m, n, hMs, hch, hlM, hexp, -⟩ := centre_block h1 hk hik hc h2
  obtain ⟨op', hop, hop1, hop2⟩ := reshape_op ho
  obtain ⟨hsplit, -, -⟩ := linksOp_split hk
  obtain ⟨R, hR, hv⟩ := nc_links O hk hch hlM (MM := [op']) (w := [physS k ++ physT k]) (G := fun s t => op'.val (s ++ t))
    (by intro dim h h'; simp [hop1, h, h']) (by intro z; simp) (by intro ρ; simp [netTerm])
  rw [hsplit] at hR
  refine ⟨(R.val []).re, y, ?_, h1, h4, ?_⟩
  · unfold FMPS.Ek
    rw [hy, ok_bind, hMs, ok_bind]
    simp only [List.length_range', (h1.range_sites hik).2.1]
    rw [hop, ok_bind, hR, ok_bind]
  · rw [← h4.opExpect (by simpa using hik) h3, hv, hexp]
    refine congrArg Complex.re ?_
    refine sumIdx_congr fun s hs => sumIdx_congr fun t ht => ?_
    rw [hop2 s t hs ht]

end Xmps
