import Verif.Props.RhoProj

/-!
# C116: `approx_overlap` and `k_local_approx_overlap` over windows of the chain

The objects are changed by every `local_overlap`; the mean is the mean over the windows for the states passed in.
-/

namespace Xmps

open Spec Finset Xmps.Ncon

section windows
variable {d L i k : ℕ}

/-- reduced density matrices of the normalised states, and so their overlaps, depend on the ray only -/
theorem densOverlap_ray {As Bs Cs : List (ND ℂ)} (h : SameRay (List.replicate L d) Bs Cs) (hik : i + k ≤ L) :
    densOverlap L d As Bs i k = densOverlap L d As Cs i k := by
  obtain ⟨c, hc, h⟩ := h
  have e0 : List.replicate L d = (List.replicate L d).take i ++ (List.replicate k d ++ (List.replicate L d).drop (i + k)) := by
    rw [List.take_replicate, List.drop_replicate, List.replicate_append_replicate, List.replicate_append_replicate]
    congr 1
    omega
  have hcc : star c * c ≠ 0 := mul_ne_zero (star_ne_zero.2 hc) hc
  have e2 : braket (List.replicate L d) Bs Bs = star c * c * braket (List.replicate L d) Cs Cs := by
    unfold braket
    rw [← sumIdx_mul_left]
    refine sumIdx_congr fun s hs => ?_
    rw [h s hs, star_mul']
    ring
  unfold densOverlap
  congr 1
  refine sumIdx_congr fun s hs => sumIdx_congr fun t ht => ?_
  have e1 : Spec.redDens (List.replicate L d) Bs i k t s = star c * c * Spec.redDens (List.replicate L d) Cs i k t s := by
    unfold Spec.redDens
    rw [← sumIdx_mul_left]
    refine sumIdx_congr fun u hu => ?_
    rw [← sumIdx_mul_left]
    refine sumIdx_congr fun w hw => ?_
    rw [h _ (by rw [e0]; exact hu.append (ht.append hw)), h _ (by rw [e0]; exact hu.append (hs.append hw)), star_mul']
    ring
  rw [e1, e2, mul_div_mul_left _ _ hcc]

/-- the values over a list of windows -/
theorem FMPS.localOverlaps_product {qr rq : ND ℂ → Py (ND ℂ × ND ℂ)} (hqr : QRLaw qr) (hrq : RQLaw rq) (O : SetOrder) {x : FMPS ℂ}
    (hx : x.Product L d) (hn : braket (List.replicate L d) x.data x.data ≠ 0) (hd : d ≠ 1) (hk : 0 < k) :
    ∀ (is : List ℕ) {y : FMPS ℂ}, y.Honest (List.replicate L d) → (∀ i ∈ is, i + k ≤ L) →
      FMPS.localOverlaps qr rq O x y (is.map fun i : ℕ => List.range' i k) =
        .ok (is.map fun i => blockNorm d x.data i k * densOverlap L d x.data y.data i k)
  | [], y, _, _ => rfl
  | i :: is, y, hy, hi => by
    obtain ⟨v, y', e, h1, h2, hv⟩ := FMPS.localOverlap_product hqr hrq O hx hn hy hd hk (hi i (by simp))
    have ih := FMPS.localOverlaps_product hqr hrq O hx hn hd hk is h1 (fun j hj => hi j (by simp [hj]))
    simp only [List.map_cons, FMPS.localOverlaps]
    rw [e, ok_bind]
    simp only
    rw [ih, ok_bind, hv]
    congr 2
    refine List.map_congr_left fun j hj => ?_
    rw [densOverlap_ray h2 (hi j (by simp [hj]))]

/-- **C116** (exact): for a product state `x`, `x.approx_overlap(y, As)` over any non-empty list of windows of `k` sites is the arithmetic mean of
`Tr(ρ_x ρ_y)` times the squared norm of the tensors of `x` on the window, each for the state `y` passed in. -/
theorem FMPS.approxOverlap_product {qr rq : ND ℂ → Py (ND ℂ × ND ℂ)} (hqr : QRLaw qr) (hrq : RQLaw rq) (O : SetOrder) {x y : FMPS ℂ}
    (hx : x.Product L d) (hn : braket (List.replicate L d) x.data x.data ≠ 0) (hy : y.Honest (List.replicate L d)) (hd : d ≠ 1) (hk : 0 < k)
    {is : List ℕ} (hne : is ≠ []) (hi : ∀ i ∈ is, i + k ≤ L) :
    x.approxOverlap qr rq O y (is.map fun i : ℕ => List.range' i k) =
      .ok (some ((is.map fun i => blockNorm d x.data i k * densOverlap L d x.data y.data i k).sum / is.length)) := by
  unfold FMPS.approxOverlap
  rw [FMPS.localOverlaps_product hqr hrq O hx hn hd hk is hy hi, ok_bind, if_neg (by simpa using hne), List.length_map]

/-- **C116** (exact): `x.k_local_approx_overlap(y, k)` is the mean over the `L - k + 1` windows of `k` consecutive sites. -/
theorem FMPS.kLocal_product {qr rq : ND ℂ → Py (ND ℂ × ND ℂ)} (hqr : QRLaw qr) (hrq : RQLaw rq) (O : SetOrder) {x y : FMPS ℂ}
    (hx : x.Product L d) (hn : braket (List.replicate L d) x.data x.data ≠ 0) (hy : y.Honest (List.replicate L d)) (hd : d ≠ 1) (hk : 0 < k)
    (hkL : k ≤ L) :
    x.kLocalApproxOverlap qr rq O y (some k) =
      .ok (some (((∑ i ∈ range (L - k + 1), blockNorm d x.data i k * densOverlap L d x.data y.data i k) / (L - k + 1 : ℕ) : ℝ) : ℂ)) := by
  have hxL : x.L = L := by simpa using hx.holds.len
  simp only [FMPS.kLocalApproxOverlap]
  rw [FMPS.approxOverlap_product hqr hrq O hx hn hy hd hk (is := List.range (x.L + 1 - k)) (by simp; omega)
    (by intro i hi; simp at hi; omega), ok_bind, hxL, show L + 1 - k = L - k + 1 by omega]
  simp only [List.length_range]
  rw [show ((List.range (L - k + 1)).map fun i => blockNorm d x.data i k * densOverlap L d x.data y.data i k).sum =
    ∑ i ∈ range (L - k + 1), blockNorm d x.data i k * densOverlap L d x.data y.data i k from rfl]
  rfl

/-- a product state with unit tensors against any state: the mean of the overlaps of the reduced density matrices -/
theorem FMPS.kLocal_unit {qr rq : ND ℂ → Py (ND ℂ × ND ℂ)} (hqr : QRLaw qr) (hrq : RQLaw rq) (O : SetOrder) {x y : FMPS ℂ}
    (hx : x.Product L d) (hu : ∀ A ∈ x.data, ∑ a ∈ range d, ‖A.val [a, 0, 0]‖ ^ 2 = 1) (hy : y.Honest (List.replicate L d)) (hd : d ≠ 1)
    (hk : 0 < k) (hkL : k ≤ L) :
    x.kLocalApproxOverlap qr rq O y (some k) =
      .ok (some (((∑ i ∈ range (L - k + 1), densOverlap L d x.data y.data i k) / (L - k + 1 : ℕ) : ℝ) : ℂ)) := by
  have hone : ∀ As : List (ND ℂ), (∀ A ∈ As, A ∈ x.data) → (As.map fun A => ∑ a ∈ range d, ‖A.val [a, 0, 0]‖ ^ 2).prod = 1 := by
    intro As h
    refine List.prod_eq_one fun r hr => ?_
    obtain ⟨A, hA, rfl⟩ := List.mem_map.1 hr
    exact hu A (h A hA)
  have hn : braket (List.replicate L d) x.data x.data ≠ 0 := by
    rw [braket_product hx, siteDots_self, hone _ fun A h => h]
    simp
  rw [FMPS.kLocal_product hqr hrq O hx hn hy hd hk hkL]
  simp only [blockNorm, hone _ fun A h => List.mem_of_mem_drop (List.mem_of_mem_take h), one_mul]

end windows

section examples

/-- `|0⟩ ⊗ i|1⟩` -/
def exUnitPhase : FMPS ℂ :=
  { L := 2, d := 2, D := 1, data := [⟨[2, 1, 1], fun | 0 :: _ => 1 | _ => 0⟩, ⟨[2, 1, 1], fun | 0 :: _ => 0 | _ => Complex.I⟩] }

theorem exUnitPhase_product : exUnitPhase.Product 2 2 :=
  ⟨⟨⟨1, rfl, 1, rfl, rfl⟩, by simp, rfl, rfl⟩, by simp [exUnitPhase]⟩

variable {qr rq : ND ℂ → Py (ND ℂ × ND ℂ)} (hqr : QRLaw qr) (hrq : RQLaw rq) (O : SetOrder)
include hqr hrq

/-- two windows of one site; the squared norms of the two tensors differ -/
example := FMPS.kLocal_product hqr hrq O exPhase_product (braket_ne_zero_honest exPhase_honest) exTwo_honest (k := 1) (by simp) (by simp) (by simp)
example := FMPS.approxOverlap_product hqr hrq O exPhase_product (braket_ne_zero_honest exPhase_honest) exTwo_honest (k := 1) (is := [1, 0])
  (by simp) (by simp) (by simp) (by simp)
example := FMPS.kLocal_unit hqr hrq O exUnitPhase_product (by simp [exUnitPhase, sum_range_succ]) exTwo_honest (k := 1) (by simp) (by simp) (by simp)

end examples

end Xmps
