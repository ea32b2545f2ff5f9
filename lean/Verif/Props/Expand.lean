import Verif.Model.Expand
import Verif.Props.Padding
import Verif.Props.Canonicalise
import Verif.Props.TangentState

/-! # Property C22: `expand` -/

namespace Xmps

open Finset Xmps.Spec

namespace FMPS

theorem bondAt_pos {L d D : ℕ} (hd : 0 < d) (hD : 1 ≤ D) (i : ℕ) : 0 < bondAt L d D i := by
  unfold bondAt
  exact lt_min (Nat.pow_pos hd) hD

theorem bondAt_step {L d D : ℕ} (hd : 0 < d) (i : ℕ) : bondAt L d D (i + 1) ≤ d * bondAt L d D i := by
  unfold bondAt
  have h1 : d ^ min (i + 1) (L - (i + 1)) ≤ d * d ^ min i (L - i) := by
    rw [← pow_succ']
    exact Nat.pow_le_pow_right hd (by omega)
  rcases le_total (d ^ min i (L - i)) D with h | h
  · rw [min_eq_left h]
    exact le_trans (min_le_left _ _) h1
  · rw [min_eq_right h]
    exact le_trans (min_le_right _ _) (Nat.le_mul_of_pos_left _ hd)

theorem pyGet_shape {data : List (ND ℂ)} {sh : List (List ℕ)} (h : data.map ND.shape = sh) {m : ℕ} (hm : m < data.length) {s : List ℕ}
    (hs : sh[m]? = some s) : ∃ A, pyGet data m = .ok A ∧ A.shape = s := by
  refine ⟨data[m], pyGet_ok hm, ?_⟩
  subst h
  rw [List.getElem?_map, List.getElem?_eq_getElem hm] at hs
  simpa using hs

theorem set_shape {data : List (ND ℂ)} {m : ℕ} {A : ND ℂ} {s : List ℕ} (hs : (data.map ND.shape)[m]? = some s) (hA : A.shape = s) :
    (data.set m A).map ND.shape = data.map ND.shape := by
  rw [List.map_set, hA]
  obtain ⟨h, e⟩ := List.getElem?_eq_some_iff.1 hs
  rw [← e, List.set_getElem_self]

/-- without truncation a step of the sweep keeps the shapes, if no bond is more than `d` times the bond on its left -/
theorem leftSvdStep_shapes {svd : Svd} (hsvd : SVDLaw svd) {b : ℕ → ℕ} {d L : ℕ} (hd : 0 < d) (hb : ∀ i, 0 < b i)
    (hstep : ∀ i, b (i + 1) ≤ d * b i) {x y : FMPS ℂ} {m : ℕ} (hm : m < L) (hxd : x.d = d)
    (hsh : x.data.map ND.shape = (List.range L).map fun i => [d, b i, b (i + 1)])
    (h : x.leftSvdStep svd none false m = .ok y) : y.d = d ∧ y.data.map ND.shape = x.data.map ND.shape := by
  have hlen : x.data.length = L := by simpa using congrArg List.length hsh
  have hget : ∀ i < L, (x.data.map ND.shape)[i]? = some [d, b i, b (i + 1)] := by
    intro i hi
    rw [hsh, List.getElem?_map, List.getElem?_range hi]
    rfl
  obtain ⟨T, hT, hTs⟩ := pyGet_shape rfl (by omega) (hget m hm)
  obtain ⟨M, U, S, V, A, A', S', V', SV, k, e1, e2, e3, e4, e5, hA's, hSVs, -, -, -, -, -, hk⟩ :=
    svd_site_left hsvd hTs hd (hb m) (hb (m + 1)) none false
  have hk : k = b (m + 1) := by rw [hk rfl rfl, min_eq_right (hstep m)]
  subst hk
  have h1 : (x.data.set m A').map ND.shape = x.data.map ND.shape := set_shape (hget m hm) hA's
  unfold leftSvdStep at h
  rw [hT, ok_bind, e1, ok_bind, e2, ok_bind] at h
  simp only at h
  rw [hxd, e3, ok_bind, e4] at h
  simp only at h
  rw [e5, ok_bind] at h
  split at h
  · rename_i hlt
    rw [List.length_set, hlen] at hlt
    obtain ⟨B, hB, hBs⟩ := pyGet_shape h1 (by simp; omega) (hget (m + 1) hlt)
    obtain ⟨B', hB', hB's, -⟩ := ND.matmul23 hSVs hBs
    rw [hB, ok_bind, hB', ok_bind] at h
    rw [← Except.ok.inj h]
    exact ⟨rfl, by rw [set_shape (by rw [h1]; exact hget (m + 1) hlt) hB's, h1]⟩
  · rw [← Except.ok.inj h]
    exact ⟨rfl, h1⟩

theorem foldlM_shapes {svd : Svd} (hsvd : SVDLaw svd) {b : ℕ → ℕ} {d L : ℕ} (hd : 0 < d) (hb : ∀ i, 0 < b i)
    (hstep : ∀ i, b (i + 1) ≤ d * b i) : ∀ (ms : List ℕ) {x y : FMPS ℂ}, (∀ m ∈ ms, m < L) → x.d = d →
    x.data.map ND.shape = ((List.range L).map fun i => [d, b i, b (i + 1)]) →
    ms.foldlM (leftSvdStep svd none false) x = .ok y → y.data.map ND.shape = x.data.map ND.shape
  | [], x, y, _, _, _, h => by
    rw [List.foldlM_nil] at h
    rw [← Except.ok.inj h]
  | m :: ms, x, y, hms, hxd, hsh, h => by
    rw [List.foldlM_cons] at h
    obtain ⟨z, hz, h⟩ := bind_eq_ok h
    obtain ⟨h1, h2⟩ := leftSvdStep_shapes hsvd hd hb hstep (hms m (by simp)) hxd hsh hz
    rw [foldlM_shapes hsvd hd hb hstep ms (fun m hm => hms m (by simp [hm])) h1 (by rw [h2, hsh]) h, h2]

/-- **C22**: `expand(D)` on a chain none of whose bonds exceeds the standard bonds for `D`: the object gets exactly the standard bonds,
its tensors are left isometries, and its state is the old state divided by `norm_`. -/
theorem expand_spec {svd : Svd} {eig : Eig} (hsvd : SVDLaw svd) {x : FMPS ℂ} {L d D : ℕ} (hx : x.Holds (List.replicate L d)) (hL : 2 ≤ L)
    (hd : 0 < d) (hD : 1 ≤ D) (hnz : ∃ s, InB (List.replicate L d) s ∧ psi x.data s ≠ 0)
    (hb : ∀ i (hi : i < x.data.length), (x.data[i].shape.getD 1 0) ≤ bondAt L d D i ∧ (x.data[i].shape.getD 2 0) ≤ bondAt L d D (i + 1)) :
    ∃ y R, expand svd eig x D = .ok y ∧ y.Holds (List.replicate L d) ∧ y.D = D ∧
      y.data.map ND.shape = ((List.range L).map fun i => [d, bondAt L d D i, bondAt L d D (i + 1)]) ∧
      (∀ A ∈ y.data, LeftIso A) ∧ braket (List.replicate L d) y.data y.data = 1 ∧
      y.norm_ = some R ∧ R.shape = [1, 1] ∧
      (∀ s, InB (List.replicate L d) s → psi x.data s = R.val [0, 0] * psi y.data s) ∧ y.oc = some L := by
  obtain ⟨p, hp, hpH, hpD, hpsh, hppsi⟩ := expandPad_spec hx hL hd hD hb
  have hpd : p.d = d := by
    rw [hpH.d]; obtain ⟨k, rfl⟩ : ∃ k, L = k + 1 := ⟨L - 1, by omega⟩; rfl
  have hpos : PosDims p.data := by
    intro A hA n hn
    have : A.shape ∈ p.data.map ND.shape := List.mem_map_of_mem hA
    rw [hpsh] at this
    obtain ⟨i, -, e⟩ := List.mem_map.1 this
    rw [← e] at hn
    simp only [List.mem_cons, List.not_mem_nil, or_false] at hn
    rcases hn with rfl | rfl | rfl
    · exact hd
    · exact bondAt_pos hd hD _
    · exact bondAt_pos hd hD _
  obtain ⟨s0, hs0, hne⟩ := hnz
  obtain ⟨y, R, hy, hyH, -, hiso, hbr, -, hn, hR, -, hpsi, -, -, hoc⟩ := leftCanonicalise_sweep (eig := eig) hsvd hpH
    (by intro t ht; rw [hpd]; exact List.eq_of_mem_replicate ht) hpos none (by simp) (fun _ => ⟨s0, hs0, by rwa [hppsi s0 hs0]⟩) true false rfl
  have hyD : y.D = p.D ∧ y.data.map ND.shape = p.data.map ND.shape := by
    unfold leftCanonicalise at hy
    obtain ⟨z, hz, hy⟩ := bind_eq_ok hy
    have hsh := foldlM_shapes hsvd hd (bondAt_pos hd hD) (bondAt_step hd) _ (L := L) (fun m hm => by
      have : p.data.length = L := by simpa using congrArg List.length hpsh
      rw [List.mem_range] at hm
      simpa [capD, this] using hm) (show (p.capD none).d = d from hpd) hpsh hz
    have hD' : ∀ (ms : List ℕ) {x y : FMPS ℂ}, ms.foldlM (leftSvdStep svd none false) x = .ok y → y.D = x.D := by
      intro ms
      induction ms with
      | nil => intro x y h; rw [List.foldlM_nil] at h; rw [← Except.ok.inj h]
      | cons m ms ih =>
        intro x y h
        rw [List.foldlM_cons] at h
        obtain ⟨w, hw, h⟩ := bind_eq_ok h
        rw [ih h]
        unfold leftSvdStep at hw
        obtain ⟨_, _, hw⟩ := bind_eq_ok hw
        obtain ⟨_, _, hw⟩ := bind_eq_ok hw
        obtain ⟨⟨_, _, _⟩, _, hw⟩ := bind_eq_ok hw
        simp only at hw
        obtain ⟨_, _, hw⟩ := bind_eq_ok hw
        obtain ⟨_, _, hw⟩ := bind_eq_ok hw
        split at hw
        · obtain ⟨_, _, hw⟩ := bind_eq_ok hw
          obtain ⟨_, _, hw⟩ := bind_eq_ok hw
          rw [← Except.ok.inj hw]
        · rw [← Except.ok.inj hw]
    have hzD := hD' _ hz
    simp only [Bool.and_false, Bool.false_eq_true, if_false] at hy
    have e := Except.ok.inj hy
    rw [← (Prod.mk.inj e).1]
    exact ⟨hzD, hsh⟩
  refine ⟨y, R, ?_, hyH, by rw [hyD.1, hpD], by rw [hyD.2, hpsh], hiso, hbr, hn, hR, fun s hs => ?_, by simpa using hoc⟩
  · simp only [expand, hp, ok_bind, hy]
  · rw [← hppsi s hs]
    exact hpsi rfl s hs

/-- **C22**: `expand(D)` cannot shrink: if a bond exceeds the standard bond for `D` the call raises `ValueError`. -/
theorem expand_raises {svd : Svd} {eig : Eig} {x : FMPS ℂ} {L d D : ℕ} (hx : x.Holds (List.replicate L d)) (hL : 2 ≤ L)
    (hd : 0 < d) {i : ℕ} (hi : i < x.data.length) (h : bondAt L d D (i + 1) < x.data[i].shape.getD 2 0) :
    expand svd eig x D = .error .valueError := by
  have hxL : x.L = L := by rw [hx.len]; simp
  have hxd : x.d = d := by
    rw [hx.d]; obtain ⟨k, rfl⟩ : ∃ k, L = k + 1 := ⟨L - 1, by omega⟩; rfl
  have key : ∀ (f : ND ℂ × List ℕ × (ℕ × ℕ) → Py (ND ℂ)), (∀ a, (∃ b, f a = .ok b) ∨ f a = .error .valueError) →
      ∀ l : List (ND ℂ × List ℕ × (ℕ × ℕ)), (∃ a ∈ l, f a = .error .valueError) → l.mapM f = .error .valueError := by
    intro f hf l
    induction l with
    | nil => rintro ⟨a, ha, -⟩; simp at ha
    | cons a l ih =>
      rintro ⟨a', ha', he⟩
      rw [List.mapM_cons]
      rcases hf a with ⟨b, hb⟩ | hb
      · rw [hb, ok_bind]
        rcases List.mem_cons.1 ha' with rfl | ha'
        · rw [hb] at he; simp at he
        · rw [ih ⟨a', ha', he⟩]; rfl
      · rw [hb]; rfl
  have hlen : x.data.length = L := by rw [hx.chain.length_eq]; simp
  have hraise : expandPad x D = .error .valueError := by
    simp only [expandPad, structure_ok hx.chain (by intro e he; rw [List.eq_of_mem_replicate he]; exact hd), ok_bind, hxL, hxd,
      createStructure_spec hL]
    rw [key _ ?_ _ ?_]
    · rfl
    · rintro ⟨A, s, t⟩
      simp only [padEnd, guardPy]
      split
      · rw [ok_bind]
        split
        · exact .inl ⟨_, rfl⟩
        · exact .inr rfl
      · exact .inr rfl
    · refine ⟨(x.data[i], x.data[i].shape.tail, (bondAt L d D i, bondAt L d D (i + 1))), ?_, ?_⟩
      · rw [List.mem_iff_getElem]
        refine ⟨i, by simp; omega, ?_⟩
        simp
      · obtain ⟨d', l', r', hs⟩ : ∃ a b c, x.data[i].shape = [a, b, c] := by
          obtain ⟨l, r, -, hs, -⟩ := chain_site hx.chain hi
          exact ⟨_, _, _, hs⟩
        rw [hs] at h ⊢
        simp only [List.getD_cons_succ, List.getD_cons_zero] at h
        have : ([0, (bondAt L d D i : ℤ) - l', (bondAt L d D (i + 1) : ℤ) - r'].all fun z => decide (0 ≤ z)) = false := by
          simp only [List.all_cons, List.all_nil, Bool.and_true]
          rw [Bool.and_eq_false_iff, Bool.and_eq_false_iff]
          right; right
          simp; omega
        simp only [List.tail_cons, List.zipWith_cons_cons, List.zipWith_nil_right, padEnd, this, guardPy]
        rfl
  rw [expand, hraise]
  rfl

/-! Concrete cases: a two-site chain with inner bond 2, expanded to 4 and to 1. -/
example {svd : Svd} {eig : Eig} (hsvd : SVDLaw svd) := expand_spec (eig := eig) (D := 4) hsvd (exTwo_holds 5) (by decide) (by decide) (by decide)
  ⟨[0, 1], by simp [InB], by simp [psi, exTwo, exData, pathProd, ND.dim]⟩ (by decide)

example {svd : Svd} {eig : Eig} : expand svd eig (exTwo 5) 1 = .error .valueError :=
  expand_raises (exTwo_holds 5) (by decide) (by decide) (i := 0) (by decide) (by decide)

end FMPS

end Xmps
