import Verif.Model.RhoProj
import Verif.Lemmas.Kron
import Verif.Props.ExpectMore
import Verif.Props.FmpsArith
import Verif.Props.FmpsOverlap

/-!
# C115, C116: density matrices of product states, `rho_proj`, `local_overlap` with a product state, `product_state_overlap`,
`k_local_approx_overlap`

Specification: `crossDens`, the entries of the partial trace of `|x⟩⟨y|`.
-/

namespace Xmps

open Spec Finset Xmps.Ncon

/-- the entry `⟨t| Tr_rest |x⟩⟨y| |s⟩` on the `k` sites from `i` on -/
def Spec.crossDens (ds : List ℕ) (As Bs : List (ND ℂ)) (i k : ℕ) (t s : List ℕ) : ℂ :=
  sumIdx (ds.take i) fun u => sumIdx (ds.drop (i + k)) fun w => psi As (u ++ (t ++ w)) * star (psi Bs (u ++ (s ++ w)))

/-- the amplitude of a product state -/
def prodVal : List (ND ℂ) → List ℕ → ℂ
  | A :: As, s :: ss => A.val [s, 0, 0] * prodVal As ss
  | _, _ => 1

/-- `Σ_a A_a conj(B_a)` -/
def siteDot (d : ℕ) (A B : ND ℂ) : ℂ := ∑ a ∈ range d, A.val [a, 0, 0] * star (B.val [a, 0, 0])

/-- the product of the `siteDot`s -/
def siteDots (d : ℕ) : List (ND ℂ) → List (ND ℂ) → ℂ
  | A :: As, B :: Bs => siteDot d A B * siteDots d As Bs
  | _, _ => 1

section product
variable {d : ℕ}

theorem amp_bond1 : ∀ {As : List (ND ℂ)} {s : List ℕ}, (∀ A ∈ As, A.shape = [d, 1, 1]) → s.length = As.length → amp As s 0 0 = prodVal As s
  | [], [], _, _ => by simp [amp, prodVal]
  | A :: As, t :: s, h, hs => by
    have hA : A.dim 2 = 1 := by simp [ND.dim, h A (by simp)]
    rw [amp, hA, sum_range_one, amp_bond1 (fun B hB => h B (by simp [hB])) (by simpa using hs)]
    rfl

theorem prodVal_append : ∀ {As Bs : List (ND ℂ)} {s t : List ℕ}, s.length = As.length → prodVal (As ++ Bs) (s ++ t) = prodVal As s * prodVal Bs t
  | [], Bs, [], t, _ => by simp [prodVal]
  | A :: As, Bs, a :: s, t, h => by
    simp only [List.cons_append, prodVal]
    rw [prodVal_append (by simpa using h), mul_assoc]

theorem sum_prodVal : ∀ {As Bs : List (ND ℂ)}, As.length = Bs.length →
    sumIdx (List.replicate As.length d) (fun u => prodVal As u * star (prodVal Bs u)) = siteDots d As Bs
  | [], [], _ => by simp [sumIdx, prodVal, siteDots]
  | A :: As, B :: Bs, h => by
    simp only [List.length_cons, List.replicate_succ, sumIdx_cons, siteDots, siteDot, prodVal, star_mul']
    rw [sum_mul]
    refine sum_congr rfl fun a _ => ?_
    rw [← sum_prodVal (by simpa using h), ← sumIdx_mul_left]
    exact sumIdx_congr fun _ _ => by ring

variable {L i k : ℕ} {As Bs : List (ND ℂ)}

theorem crossDens_product (hA : ∀ A ∈ As, A.shape = [d, 1, 1]) (hB : ∀ B ∈ Bs, B.shape = [d, 1, 1]) (lA : As.length = L) (lB : Bs.length = L)
    (pA : ∀ s, InB (List.replicate L d) s → psi As s = amp As s 0 0) (pB : ∀ s, InB (List.replicate L d) s → psi Bs s = amp Bs s 0 0)
    (hik : i + k ≤ L) {t s : List ℕ} (ht : InB (List.replicate k d) t) (hs : InB (List.replicate k d) s) :
    crossDens (List.replicate L d) As Bs i k t s = siteDots d (As.take i) (Bs.take i) * siteDots d (As.drop (i + k)) (Bs.drop (i + k)) *
      (prodVal ((As.drop i).take k) t * star (prodVal ((Bs.drop i).take k) s)) := by
  have e0 : List.replicate L d = List.replicate i d ++ (List.replicate k d ++ List.replicate (L - (i + k)) d) := by
    rw [List.replicate_append_replicate, List.replicate_append_replicate]
    congr 1
    omega
  have split : ∀ (Cs : List (ND ℂ)), (∀ A ∈ Cs, A.shape = [d, 1, 1]) → Cs.length = L → (∀ s, InB (List.replicate L d) s → psi Cs s = amp Cs s 0 0) →
      ∀ u t w, InB (List.replicate i d) u → InB (List.replicate k d) t → InB (List.replicate (L - (i + k)) d) w →
      psi Cs (u ++ (t ++ w)) = prodVal (Cs.take i) u * (prodVal ((Cs.drop i).take k) t * prodVal (Cs.drop (i + k)) w) := by
    intro Cs hC lC pC u t w hu ht hw
    have hin : InB (List.replicate L d) (u ++ (t ++ w)) := by rw [e0]; exact hu.append (ht.append hw)
    rw [pC _ hin, amp_bond1 hC (by rw [hin.length_eq, lC, List.length_replicate])]
    have hCs : Cs = Cs.take i ++ ((Cs.drop i).take k ++ Cs.drop (i + k)) := by
      rw [← List.drop_drop, List.take_append_drop, List.take_append_drop]
    conv_lhs => rw [hCs]
    rw [prodVal_append (by rw [hu.length_eq]; simp; omega), prodVal_append (by rw [ht.length_eq]; simp; omega)]
  unfold crossDens
  rw [List.take_replicate, List.drop_replicate, min_eq_left (by omega)]
  have l1 : (As.take i).length = i := by simp; omega
  have l2 : (As.drop (i + k)).length = L - (i + k) := by simp; omega
  have h1 := sum_prodVal (d := d) (As := As.take i) (Bs := Bs.take i) (by simp; omega)
  have h2 := sum_prodVal (d := d) (As := As.drop (i + k)) (Bs := Bs.drop (i + k)) (by simp; omega)
  rw [l1] at h1
  rw [l2] at h2
  rw [← h1, ← h2, mul_assoc, ← sumIdx_mul_right]
  refine sumIdx_congr fun u hu => ?_
  rw [← sumIdx_mul_right, ← sumIdx_mul_left]
  refine sumIdx_congr fun w hw => ?_
  rw [split As hA lA pA u t w hu ht hw, split Bs hB lB pB u s w hu hs hw]
  simp only [star_mul']
  ring

theorem outer_ok (O : SetOrder) {A B : ND ℂ} (hd : d ≠ 1) (hA : A.shape = [d, 1, 1]) (hB : B.shape = [d, 1, 1]) :
    ∃ R, nc O [A.squeeze, B.conj.squeeze] [[-1], [-2]] = .ok R ∧ R.shape = [d, d] ∧ ∀ a b, R.val [a, b] = A.val [a, 0, 0] * star (B.val [b, 0, 0]) := by
  have sA : A.squeeze.shape = [d] := by simp [ND.squeeze, hA, hd]
  have sB : B.conj.squeeze.shape = [d] := by simp [ND.squeeze, ND.conj, hB, hd]
  obtain ⟨R, e, hR, hv⟩ := nc_eval O (AA := [A.squeeze, B.conj.squeeze]) (v := [[-1], [-2]]) (dimOf [(-1, d), (-2, d)]) [] [-1, -2]
    ⟨by simp, by simp [sA, sB, dimOf, List.lookup], by simp, by simp, by decide, by decide, by decide, by decide, by decide⟩ (by decide) (by decide)
  refine ⟨R, e, by rw [hR]; simp [dimOf, List.lookup], fun a b => ?_⟩
  rw [hv _ rfl]
  simp [labelSum, netTerm, assign, ND.squeeze, ND.squeeze.go, ND.conj, hA, hB, hd]

end product

/-- a chain of `L` tensors of shape `[d, 1, 1]`: a product state -/
structure FMPS.Product (x : FMPS ℂ) (L d : ℕ) : Prop where
  holds : x.Holds (List.replicate L d)
  flat : ∀ A ∈ x.data, A.shape = [d, 1, 1]

/-- the tensors outside the `k` sites from `i` on are conjugated -/
def Spec.conjOutside (i k : ℕ) (As : List (ND ℂ)) : List (ND ℂ) :=
  (As.take i).map ND.conj ++ ((As.drop i).take k ++ (As.drop (i + k)).map ND.conj)

section values
variable {d L i k : ℕ}

theorem FMPS.Product.len {x : FMPS ℂ} (h : x.Product L d) : x.data.length = L := by simpa using h.holds.chain.length_eq

theorem bondDimension_product {As : List (ND ℂ)} (hne : As ≠ []) (h : ∀ A ∈ As, A.shape = [d, 1, 1]) : FMPS.bondDimension As = .ok 1 := by
  unfold FMPS.bondDimension
  rw [mapM_ok (g := fun _ => 1) (fun A hA => by rw [h A hA]; rfl), ok_bind]
  obtain ⟨A, As, rfl⟩ := List.exists_cons_of_ne_nil hne
  have : ∀ l : List (ND ℂ), (l.map fun _ => 1).foldl max 1 = 1 := by
    intro l
    induction l with
    | nil => rfl
    | cons a l ih => simpa using ih
  simpa [pyMax] using this As

theorem outers_ok (O : SetOrder) {As Bs : List (ND ℂ)} (hd : d ≠ 1) (hA : ∀ A ∈ As, A.shape = [d, 1, 1]) (hB : ∀ B ∈ Bs, B.shape = [d, 1, 1])
    (lA : As.length = L) (lB : Bs.length = L) : ∀ {k i : ℕ}, i + k ≤ L → ∃ rs, ((List.range' i k).mapM fun i : ℕ => do
      let A ← pyGet As i
      let B ← pyGet Bs i
      nc O [A.squeeze, B.conj.squeeze] [[-1], [-2]]) = .ok rs ∧ rs.length = k ∧ (∀ R ∈ rs, R.shape = [d, d]) ∧
      ∀ t s, t.length = k → s.length = k → prodOp rs t s = prodVal ((As.drop i).take k) t * star (prodVal ((Bs.drop i).take k) s)
  | 0, i, _ => ⟨[], rfl, rfl, by simp, fun t s _ _ => by simp [prodOp, prodVal]⟩
  | k + 1, i, h => by
    have hi : i < As.length := by omega
    have hi' : i < Bs.length := by omega
    obtain ⟨R, e, hR, hv⟩ := outer_ok O hd (hA _ (List.getElem_mem hi)) (hB _ (List.getElem_mem hi'))
    obtain ⟨rs, e', l', s', v'⟩ := outers_ok O hd hA hB lA lB (k := k) (i := i + 1) (by omega)
    refine ⟨R :: rs, ?_, by simp [l'], by simpa [hR] using s', fun t s ht hs => ?_⟩
    · rw [List.range'_succ, List.mapM_cons, e', pyGet_ok hi, ok_bind, pyGet_ok hi', ok_bind, e]
      rfl
    · match t, s, ht, hs with
      | a :: t, b :: s, ht, hs =>
        rw [List.drop_eq_getElem_cons hi, List.drop_eq_getElem_cons hi', List.take_succ_cons, List.take_succ_cons]
        simp only [prodOp, prodVal, star_mul']
        rw [hv, v' t s (by simpa using ht) (by simpa using hs)]
        ring

theorem prodElem_eq_prodOp : ∀ (As : List (ND ℂ)) (s t : List ℕ), Spin.prodElem As s t = prodOp As s t
  | [], _, _ => by simp [Spin.prodElem, prodOp]
  | _ :: _, [], _ => by simp [Spin.prodElem, prodOp]
  | _ :: _, _ :: _, [] => by simp [Spin.prodElem, prodOp]
  | A :: As, s :: ss, t :: ts => by simp [Spin.prodElem, prodOp, prodElem_eq_prodOp As ss ts]

theorem squares_replicate : ∀ {rs : List (ND ℂ)}, (∀ R ∈ rs, R.shape = [d, d]) → Spin.Squares (List.replicate rs.length d) rs
  | [], _ => trivial
  | R :: rs, h => ⟨h R (by simp), squares_replicate fun S hS => h S (by simp [hS])⟩

theorem partialDot_ok {A B : ND ℂ} (hd : d ≠ 1) (hA : A.shape = [d, 1, 1]) (hB : B.shape = [d, 1, 1]) :
    FMPS.partialDot A B = .ok (siteDot d A.conj B) := by
  have sA : A.squeeze.shape = [d] := by simp [ND.squeeze, hA, hd]
  have sB : B.conj.squeeze.shape = [d] := by simp [ND.squeeze, ND.conj, hB, hd]
  simp [FMPS.partialDot, sA, sB, siteDot, ND.squeeze, ND.squeeze.go, ND.conj, hA, hB, hd]

theorem dots_ok {As Bs : List (ND ℂ)} (hd : d ≠ 1) (hA : ∀ A ∈ As, A.shape = [d, 1, 1]) (hB : ∀ B ∈ Bs, B.shape = [d, 1, 1])
    (lA : As.length = L) (lB : Bs.length = L) : ∀ {k i : ℕ}, i + k ≤ L → ∃ ps, ((List.range' i k).mapM fun i : ℕ => do
      let A ← pyGet As i
      let B ← pyGet Bs i
      FMPS.partialDot A B) = .ok ps ∧ ps.prod = siteDots d (((As.drop i).take k).map ND.conj) ((Bs.drop i).take k)
  | 0, i, _ => ⟨[], rfl, by simp [siteDots]⟩
  | k + 1, i, h => by
    have hi : i < As.length := by omega
    have hi' : i < Bs.length := by omega
    obtain ⟨ps, e', v'⟩ := dots_ok hd hA hB lA lB (k := k) (i := i + 1) (by omega)
    refine ⟨siteDot d As[i].conj Bs[i] :: ps, ?_, ?_⟩
    · rw [List.range'_succ, List.mapM_cons, e', pyGet_ok hi, ok_bind, pyGet_ok hi', ok_bind,
        partialDot_ok hd (hA _ (List.getElem_mem hi)) (hB _ (List.getElem_mem hi'))]
      rfl
    · rw [List.drop_eq_getElem_cons hi, List.drop_eq_getElem_cons hi', List.take_succ_cons, List.take_succ_cons, List.prod_cons, v']
      rfl

theorem filter_outside (h : i + k ≤ L) :
    (List.range L).filter (fun j : ℕ => decide (j ∉ List.range' i k)) = List.range' 0 i ++ List.range' (i + k) (L - (i + k)) := by
  have e : List.range L = List.range' 0 i ++ (List.range' i k ++ List.range' (i + k) (L - (i + k))) := by
    rw [List.range_eq_range', List.range'_append_1]
    have := List.range'_append_1 (s := 0) (m := i) (n := k + (L - (i + k)))
    rw [zero_add] at this
    rw [this]
    congr 1
    omega
  have a : (List.range' 0 i).filter (fun j : ℕ => decide (j ∉ List.range' i k)) = List.range' 0 i :=
    List.filter_eq_self.2 fun j hj => by simp only [List.mem_range'_1] at hj ⊢; simp; omega
  have b : (List.range' i k).filter (fun j : ℕ => decide (j ∉ List.range' i k)) = [] :=
    List.filter_eq_nil_iff.2 fun j hj => by simp [hj]
  have c : (List.range' (i + k) (L - (i + k))).filter (fun j : ℕ => decide (j ∉ List.range' i k)) = List.range' (i + k) (L - (i + k)) :=
    List.filter_eq_self.2 fun j hj => by simp only [List.mem_range'_1] at hj ⊢; simp; omega
  rw [e, List.filter_append, List.filter_append, a, b, c, List.nil_append]

theorem mapM_append_ok {α β : Type} {f : α → Py β} : ∀ {l l' : List α} {m m' : List β}, l.mapM f = .ok m → l'.mapM f = .ok m' →
    (l ++ l').mapM f = .ok (m ++ m')
  | l, l', m, m', h, h' => by rw [List.mapM_append, h, ok_bind, h']; rfl

theorem flat_conjOutside {As : List (ND ℂ)} (h : ∀ A ∈ As, A.shape = [d, 1, 1]) : ∀ A ∈ conjOutside i k As, A.shape = [d, 1, 1] := by
  intro A hA
  simp only [conjOutside, List.mem_append, List.mem_map] at hA
  rcases hA with ⟨B, hB, rfl⟩ | hA | ⟨B, hB, rfl⟩
  · exact h B (List.mem_of_mem_take hB)
  · exact h A (List.mem_of_mem_drop (List.mem_of_mem_take hA))
  · exact h B (List.mem_of_mem_drop hB)

theorem chain_flat : ∀ {As : List (ND ℂ)}, (∀ A ∈ As, A.shape = [d, 1, 1]) → MpsChain (List.replicate As.length d) As 1 1
  | [], _ => rfl
  | A :: As, h => ⟨1, h A (by simp), chain_flat fun B hB => h B (by simp [hB])⟩

theorem psi_flat {As : List (ND ℂ)} (hL : 0 < L) (h : ∀ A ∈ As, A.shape = [d, 1, 1]) (l : As.length = L) {s : List ℕ} (hs : InB (List.replicate L d) s) :
    psi As s = amp As s 0 0 :=
  psi_eq_amp (l ▸ chain_flat h) (by rintro rfl; simp at l; omega) hs.length_eq

/-- **C115** (exact): on two product states `rho_proj` returns the partial trace of `|x'⟩⟨y|`, where the tensors of `x'` outside the sites are the
complex conjugates of those of `x`. -/
theorem FMPS.rhoProj_exact (O : SetOrder) {x y : FMPS ℂ} (hx : x.Product L d) (hy : y.Product L d) (hd : d ≠ 1) (hk : 0 < k) (hik : i + k ≤ L) :
    ∃ R, x.rhoProj O y (List.range' i k) = .ok (some R) ∧ R.shape = [d ^ k, d ^ k] ∧
      ∀ t s, InB (List.replicate k d) t → InB (List.replicate k d) s →
        matElem (List.replicate k d) R t s = crossDens (List.replicate L d) (conjOutside i k x.data) y.data i k t s := by
  obtain ⟨rs, e, l, sh, v⟩ := outers_ok O hd hx.flat hy.flat hx.len hy.len hik
  obtain ⟨ps, e1, v1⟩ := dots_ok hd hx.flat hy.flat hx.len hy.len (k := i) (i := 0) (by omega)
  obtain ⟨qs, e2, v2⟩ := dots_ok hd hx.flat hy.flat hx.len hy.len (k := L - (i + k)) (i := i + k) (by omega)
  have hne : rs ≠ [] := by rintro rfl; simp at l; omega
  obtain ⟨R, eR, hR, vR⟩ := Spin.tensor_spec (List.replicate rs.length d) rs hne (squares_replicate sh)
  rw [l] at hR vR
  have hL : x.L = L := by simpa using hx.holds.len
  refine ⟨R.smul (ps ++ qs).prod, ?_, by simpa [ND.smul] using hR, fun t s ht hs => ?_⟩
  · unfold FMPS.rhoProj
    rw [bondDimension_product hx.holds.data_ne hx.flat, ok_bind, if_pos ⟨rfl, rfl⟩, hL, filter_outside hik, mapM_append_ok e1 e2, ok_bind, e, ok_bind,
      eR, ok_bind]
  · have lt := ht.length_eq
    have ls := hs.length_eq
    rw [List.length_replicate] at lt ls
    have lx := hx.len
    have ly := hy.len
    have l1 : ((x.data.take i).map ND.conj).length = i := by simp; omega
    have l2 : ((x.data.drop i).take k).length = k := by simp; omega
    have lC : (conjOutside i k x.data).length = L := by simp [conjOutside]; omega
    rw [crossDens_product (flat_conjOutside hx.flat) hy.flat lC ly (fun s hs => psi_flat (by omega) (flat_conjOutside hx.flat) lC hs)
      (fun s hs => psi_flat (by omega) hy.flat ly hs) hik ht hs]
    have t1 : (conjOutside i k x.data).take i = (x.data.take i).map ND.conj := List.take_left' l1
    have t2 : (conjOutside i k x.data).drop i = (x.data.drop i).take k ++ (x.data.drop (i + k)).map ND.conj := List.drop_left' l1
    have t3 : (conjOutside i k x.data).drop (i + k) = (x.data.drop (i + k)).map ND.conj := by rw [← List.drop_drop, t2]; exact List.drop_left' l2
    rw [t3, t2, t1, List.take_left' l2]
    show (ps ++ qs).prod * R.val _ = _
    rw [vR t s ht hs, prodElem_eq_prodOp, v t s lt ls, List.prod_append, v1, v2, List.drop_zero, List.take_of_length_le (l := x.data.drop (i + k)) (by simp; omega),
      List.take_of_length_le (l := y.data.drop (i + k)) (by simp; omega), List.drop_zero]

/-- **C115** (`_partial`: the entries of the tensors of `x` outside the sites have to be real): `rho_proj` is the partial trace of `|x⟩⟨y|` that its
documentation promises.  Nothing is asked when the sites are the whole chain. -/
theorem FMPS.rhoProj_real_partial (O : SetOrder) {x y : FMPS ℂ} (hx : x.Product L d) (hy : y.Product L d) (hd : d ≠ 1) (hk : 0 < k) (hik : i + k ≤ L)
    (hr : ∀ A ∈ x.data.take i ++ x.data.drop (i + k), ∀ s, star (A.val s) = A.val s) :
    ∃ R, x.rhoProj O y (List.range' i k) = .ok (some R) ∧ R.shape = [d ^ k, d ^ k] ∧
      ∀ t s, InB (List.replicate k d) t → InB (List.replicate k d) s →
        matElem (List.replicate k d) R t s = crossDens (List.replicate L d) x.data y.data i k t s := by
  have hc : ∀ As : List (ND ℂ), (∀ A ∈ As, ∀ s, star (A.val s) = A.val s) → As.map ND.conj = As := by
    intro As h
    refine (List.map_congr_left fun A hA => ?_).trans (List.map_id _)
    obtain ⟨sh, v⟩ := A
    simp only [ND.conj, id, ND.mk.injEq, true_and]
    exact funext fun s => h _ hA s
  have : conjOutside i k x.data = x.data := by
    rw [conjOutside, hc _ fun A hA => hr A (List.mem_append_left _ hA), hc _ fun A hA => hr A (List.mem_append_right _ hA), ← List.drop_drop,
      List.take_append_drop, List.take_append_drop]
  simpa [this] using FMPS.rhoProj_exact O hx hy hd hk hik

/-- **C115**: with a bond dimension above one `rho_proj` returns `None`. -/
theorem FMPS.rhoProj_none (O : SetOrder) {x y : FMPS ℂ} {D : ℕ} (hD : FMPS.bondDimension x.data = .ok D) (h1 : D ≠ 1) (sites : List ℕ) :
    x.rhoProj O y sites = .ok none := by
  rw [FMPS.rhoProj, hD, ok_bind, if_neg (by simp [h1])]

/-- `|0⟩ ⊗ (|0⟩ + i|1⟩)` -/
def exPhase : FMPS ℂ :=
  { L := 2, d := 2, D := 1, data := [⟨[2, 1, 1], fun | 0 :: _ => 1 | _ => 0⟩, ⟨[2, 1, 1], fun | 0 :: _ => 1 | _ => Complex.I⟩] }

theorem exPhase_product : exPhase.Product 2 2 :=
  ⟨⟨⟨1, rfl, 1, rfl, rfl⟩, by simp, rfl, rfl⟩, by simp [exPhase]⟩

/-- **C115** (violated): the partial trace of `|x⟩⟨x|` for `x = |0⟩(|0⟩ + i|1⟩)` has the entry 2, `rho_proj(x, [0])` is zero there. -/
theorem FMPS.rhoProj_wrong (O : SetOrder) : ∃ R, exPhase.rhoProj O exPhase [0] = .ok (some R) ∧ R.val [0, 0] = 0 ∧
    crossDens [2, 2] exPhase.data exPhase.data 0 1 [0] [0] = 2 := by
  obtain ⟨R, e, -, v⟩ := FMPS.rhoProj_exact O exPhase_product exPhase_product (i := 0) (k := 1) (by simp) (by simp) (by simp)
  refine ⟨R, e, ?_, ?_⟩
  · have h := v [0] [0] (by simp [InB]) (by simp [InB])
    simp only [matElem, List.replicate_one, ravel] at h
    have e0 : R.val [0, 0] = crossDens [2, 2] (conjOutside 0 1 exPhase.data) exPhase.data 0 1 [0] [0] := by simpa using h
    rw [e0]
    simp [crossDens, conjOutside, exPhase, sumIdx, psi, pathProd, ND.conj, ND.dim, sum_range_succ]
  · norm_num [crossDens, exPhase, sumIdx, psi, pathProd, ND.dim, sum_range_succ]

end values

section overlaps
variable {d L i k : ℕ}

/-- the squared norm of the tensors on the `k` sites from `i` on -/
noncomputable def Spec.blockNorm (d : ℕ) (As : List (ND ℂ)) (i k : ℕ) : ℝ :=
  (((As.drop i).take k).map fun A => ∑ a ∈ range d, ‖A.val [a, 0, 0]‖ ^ 2).prod

/-- `Re Tr(ρ_x ρ_y)` for the reduced density matrices of the normalised states -/
noncomputable def Spec.densOverlap (L d : ℕ) (As Bs : List (ND ℂ)) (i k : ℕ) : ℝ :=
  (sumIdx (List.replicate k d) fun s => sumIdx (List.replicate k d) fun t =>
    redDens (List.replicate L d) As i k s t / braket (List.replicate L d) As As *
    (redDens (List.replicate L d) Bs i k t s / braket (List.replicate L d) Bs Bs)).re

theorem siteDots_self : ∀ (As : List (ND ℂ)), siteDots d As As = (((As.map fun A => ∑ a ∈ range d, ‖A.val [a, 0, 0]‖ ^ 2).prod : ℝ) : ℂ)
  | [] => by simp [siteDots]
  | A :: As => by
    rw [siteDots, siteDots_self As, siteDot, List.map_cons, List.prod_cons, Complex.ofReal_mul, Complex.ofReal_sum]
    congr 1
    refine sum_congr rfl fun a _ => ?_
    rw [Complex.star_def, Complex.mul_conj, Complex.normSq_eq_norm_sq]

theorem siteDots_append : ∀ {As Bs As' Bs' : List (ND ℂ)}, As.length = As'.length →
    siteDots d (As ++ Bs) (As' ++ Bs') = siteDots d As As' * siteDots d Bs Bs'
  | [], Bs, [], Bs', _ => by simp [siteDots]
  | A :: As, Bs, A' :: As', Bs', h => by
    simp only [List.cons_append, siteDots]
    rw [siteDots_append (by simpa using h), mul_assoc]

theorem braket_product {x : FMPS ℂ} (hx : x.Product L d) : braket (List.replicate L d) x.data x.data = siteDots d x.data x.data := by
  have h := sum_prodVal (d := d) (As := x.data) (Bs := x.data) rfl
  rw [hx.len] at h
  rw [← h, braket]
  refine sumIdx_congr fun s hs => ?_
  rw [Holds.psi_amp hx.holds hs, amp_bond1 hx.flat (by rw [hs.length_eq, hx.len, List.length_replicate]), mul_comm]

/-- the one-site density matrices of a product state multiply to the norm of the block times the density matrix of the block -/
theorem FMPS.rhoString_spec (O : SetOrder) {x : FMPS ℂ} (hx : x.Product L d) (hn : braket (List.replicate L d) x.data x.data ≠ 0) (hd : d ≠ 1)
    (hik : i + k ≤ L) : ∃ rs, x.rhoString O (List.range' i k) = .ok rs ∧ rs.length = k ∧ (∀ R ∈ rs, R.shape = [d, d]) ∧
      ∀ t s, InB (List.replicate k d) t → InB (List.replicate k d) s →
        prodOp rs t s = blockNorm d x.data i k * (redDens (List.replicate L d) x.data i k t s / braket (List.replicate L d) x.data x.data) := by
  obtain ⟨rs, e, l, sh, v⟩ := outers_ok O hd hx.flat hx.flat hx.len hx.len hik
  have lx := hx.len
  refine ⟨rs, ?_, l, sh, fun t s ht hs => ?_⟩
  · rw [← e]
    unfold FMPS.rhoString
    refine congrArg (fun f => List.mapM f _) (funext fun j => ?_)
    cases pyGet x.data j <;> rfl
  · have hL : 0 < L := by
      have := hx.holds.ne
      rcases Nat.eq_zero_or_pos L with rfl | h
      · simp at this
      · exact h
    have hr : redDens (List.replicate L d) x.data i k t s = crossDens (List.replicate L d) x.data x.data i k t s := rfl
    have hb := braket_product hx
    have hsplit : x.data = x.data.take i ++ ((x.data.drop i).take k ++ x.data.drop (i + k)) := by
      rw [← List.drop_drop, List.take_append_drop, List.take_append_drop]
    have hb2 : siteDots d x.data x.data = siteDots d (x.data.take i) (x.data.take i) *
        (siteDots d ((x.data.drop i).take k) ((x.data.drop i).take k) * siteDots d (x.data.drop (i + k)) (x.data.drop (i + k))) := by
      conv_lhs => rw [hsplit]
      rw [siteDots_append rfl, siteDots_append rfl]
    rw [v t s (by simpa using ht.length_eq) (by simpa using hs.length_eq), hr, crossDens_product hx.flat hx.flat lx lx
      (fun s hs => psi_flat hL hx.flat lx hs) (fun s hs => psi_flat hL hx.flat lx hs) hik ht hs, hb, hb2]
    rw [hb, hb2] at hn
    rw [blockNorm, ← siteDots_self]
    have n1 := left_ne_zero_of_mul hn
    have n2 := left_ne_zero_of_mul (right_ne_zero_of_mul hn)
    have n3 := right_ne_zero_of_mul (right_ne_zero_of_mul hn)
    field_simp

theorem braket_ne_zero_honest {x : FMPS ℂ} {ds : List ℕ} (h : x.Honest ds) : braket ds x.data x.data ≠ 0 := by
  obtain ⟨s, hs, hne⟩ := h.nonzero
  rw [braket_self]
  exact Complex.ofReal_ne_zero.2 (sumIdx_pos (fun _ => by positivity) hs (by have := norm_pos_iff.2 hne; positivity)).ne'

/-- the value of `E_k` on the one-site density matrices of a product state -/
theorem string_overlap {x y : FMPS ℂ} {rs : List (ND ℂ)} (hik : i + k ≤ L)
    (v : ∀ t s, InB (List.replicate k d) t → InB (List.replicate k d) s →
      prodOp rs t s = blockNorm d x.data i k * (redDens (List.replicate L d) x.data i k t s / braket (List.replicate L d) x.data x.data)) :
    (opExpect (List.replicate L d) y.data i k (prodOp rs) / braket (List.replicate L d) y.data y.data).re =
      blockNorm d x.data i k * densOverlap L d x.data y.data i k := by
  have e0 : List.replicate L d = List.replicate i d ++ (List.replicate k d ++ List.replicate (L - (i + k)) d) := by
    rw [List.replicate_append_replicate, List.replicate_append_replicate]
    congr 1
    omega
  have := opExpect_eq_trace (ds1 := List.replicate i d) (ds0 := List.replicate k d) (ds2 := List.replicate (L - (i + k)) d) y.data (prodOp rs)
  rw [List.length_replicate, List.length_replicate, ← e0] at this
  rw [this, densOverlap, ← Complex.re_ofReal_mul]
  refine congrArg Complex.re ?_
  rw [div_eq_mul_inv, ← sumIdx_mul_right, ← sumIdx_mul_left]
  refine sumIdx_congr fun s hs => ?_
  rw [← sumIdx_mul_right, ← sumIdx_mul_left]
  refine sumIdx_congr fun t ht => ?_
  rw [v s t hs ht]
  ring

/-- **C116** (exact): `x.local_overlap(y, sites)` for a product state `x` is `Tr(ρ_x ρ_y)` times the squared norm of the tensors of `x` on the sites. -/
theorem FMPS.localOverlap_product {qr rq : ND ℂ → Py (ND ℂ × ND ℂ)} (hqr : QRLaw qr) (hrq : RQLaw rq) (O : SetOrder) {x y : FMPS ℂ}
    (hx : x.Product L d) (hn : braket (List.replicate L d) x.data x.data ≠ 0) (hy : y.Honest (List.replicate L d)) (hd : d ≠ 1) (hk : 0 < k)
    (hik : i + k ≤ L) : ∃ v y', x.localOverlap qr rq O y (List.range' i k) = .ok (v, x, y') ∧ y'.Honest (List.replicate L d) ∧
      SameRay (List.replicate L d) y.data y'.data ∧ v = blockNorm d x.data i k * densOverlap L d x.data y.data i k := by
  obtain ⟨rs, e, l, sh, v⟩ := FMPS.rhoString_spec O hx hn hd hik
  obtain ⟨w, y', eE, h1, h2, h3⟩ := FMPS.EkString_spec hqr hrq O hy hk hik l sh
  refine ⟨w, y', ?_, h1, h2, by rw [h3, string_overlap hik v]⟩
  unfold FMPS.localOverlap
  rw [bondDimension_product hx.holds.data_ne hx.flat, ok_bind, if_pos rfl, e, ok_bind, eE, ok_bind]

/-- **C116** (exact): the same with the product state as the argument. -/
theorem FMPS.localOverlap_product_right {qr rq : ND ℂ → Py (ND ℂ × ND ℂ)} (hqr : QRLaw qr) (hrq : RQLaw rq) (O : SetOrder) {x y : FMPS ℂ} {D : ℕ}
    (hy : y.Product L d) (hn : braket (List.replicate L d) y.data y.data ≠ 0) (hx : x.Honest (List.replicate L d))
    (hD : FMPS.bondDimension x.data = .ok D) (hD1 : D ≠ 1) (hd : d ≠ 1) (hk : 0 < k)
    (hik : i + k ≤ L) : ∃ v x', x.localOverlap qr rq O y (List.range' i k) = .ok (v, x', y) ∧ x'.Honest (List.replicate L d) ∧
      SameRay (List.replicate L d) x.data x'.data ∧ v = blockNorm d y.data i k * densOverlap L d y.data x.data i k := by
  obtain ⟨rs, e, l, sh, v⟩ := FMPS.rhoString_spec O hy hn hd hik
  obtain ⟨w, x', eE, h1, h2, h3⟩ := FMPS.EkString_spec hqr hrq O hx hk hik l sh
  refine ⟨w, x', ?_, h1, h2, by rw [h3, string_overlap hik v]⟩
  unfold FMPS.localOverlap
  rw [hD, ok_bind, if_neg hD1, bondDimension_product hy.holds.data_ne hy.flat, ok_bind, if_pos rfl, e, ok_bind, eE, ok_bind]

theorem exPhase_honest : exPhase.Honest (List.replicate 2 2) := by
  refine FMPS.fresh_honest exPhase_product.holds ?_ ⟨[0, 0], by simp [InB, List.replicate_succ], ?_⟩ rfl rfl rfl
  · intro A hA n hn
    rw [exPhase_product.flat A hA] at hn
    simp at hn
    omega
  · simp [psi, exPhase, pathProd, ND.dim]

/-- **C116** (violated): the local overlap of `|0⟩(|0⟩ + i|1⟩)` with itself on the second site is 2; for density matrices it is 1. -/
theorem FMPS.localOverlap_wrong {qr rq : ND ℂ → Py (ND ℂ × ND ℂ)} (hqr : QRLaw qr) (hrq : RQLaw rq) (O : SetOrder) :
    ∃ y', exPhase.localOverlap qr rq O exPhase [1] = .ok (2, exPhase, y') ∧ densOverlap 2 2 exPhase.data exPhase.data 1 1 = 1 := by
  obtain ⟨v, y', e, -, -, hv⟩ := FMPS.localOverlap_product hqr hrq O exPhase_product (braket_ne_zero_honest exPhase_honest) exPhase_honest
    (i := 1) (k := 1) (by simp) (by simp) (by simp)
  have h1 : densOverlap 2 2 exPhase.data exPhase.data 1 1 = 1 := by
    norm_num [densOverlap, redDens, braket, exPhase, sumIdx, psi, pathProd, ND.dim, sum_range_succ, List.replicate_succ]
  have h2 : blockNorm 2 exPhase.data 1 1 = 2 := by norm_num [blockNorm, exPhase, sum_range_succ]
  rw [h1, h2, mul_one] at hv
  exact ⟨y', by rw [← hv]; exact e, h1⟩

/-- **C116**: `product_state_overlap` is the inner product with the product of the given vectors, which are conjugated. -/
theorem FMPS.productStateOverlap_spec (O : SetOrder) {x : FMPS ℂ} {vs : List (List ℂ)} (hne : vs ≠ []) (hx : x.Holds (vs.map List.length)) :
    ∃ R, x.productStateOverlap O vs = .ok R ∧ R.shape = [] ∧
      R.val [] = sumIdx (vs.map List.length) fun s => star (prodAmp vs s) * psi x.data s := by
  obtain ⟨z, e, hz, hv⟩ := FMPS.fromProductState_state vs hne
  obtain ⟨R, e', hR, hRv⟩ := FMPS.overlap_inner O hx hz
  refine ⟨R, by rw [FMPS.productStateOverlap, e, ok_bind, e'], hR, ?_⟩
  rw [hRv, braket]
  exact sumIdx_congr fun s hs => by rw [hv s hs]

/-- **C116**: `k_local_approx_overlap` without `k` is the inner product, a complex number. -/
theorem FMPS.kLocal_none (qr rq : ND ℂ → Py (ND ℂ × ND ℂ)) (O : SetOrder) {x y : FMPS ℂ} {ds : List ℕ} (hx : x.Holds ds) (hy : y.Holds ds) :
    x.kLocalApproxOverlap qr rq O y none = .ok (some (braket ds y.data x.data)) := by
  obtain ⟨R, e, -, hv⟩ := FMPS.overlap_inner O hx hy
  rw [← hv]
  simp only [FMPS.kLocalApproxOverlap]
  rw [e, ok_bind]

/-- **C116**: more sites than the chain has give the mean of an empty list. -/
theorem FMPS.kLocal_nan (qr rq : ND ℂ → Py (ND ℂ × ND ℂ)) (O : SetOrder) (x y : FMPS ℂ) (h : x.L < k) :
    x.kLocalApproxOverlap qr rq O y (some k) = .ok none := by
  have : x.L + 1 - k = 0 := by omega
  simp only [FMPS.kLocalApproxOverlap, FMPS.approxOverlap, this]
  rfl

/-- **C116**: with `k` the length of the chain it is the squared modulus of the inner product of the normalised states, not the inner product. -/
theorem FMPS.kLocal_full {qr rq : ND ℂ → Py (ND ℂ × ND ℂ)} (hqr : QRLaw qr) (hrq : RQLaw rq) (O : SetOrder)
    {x z : FMPS ℂ} {D D' : ℕ} (hx : x.Honest (List.replicate L d)) (hz : z.Honest (List.replicate L d)) (hL : 0 < L)
    (hD : FMPS.bondDimension x.data = .ok D) (hD1 : D ≠ 1) (hD' : FMPS.bondDimension z.data = .ok D') (hD1' : D' ≠ 1) :
    x.kLocalApproxOverlap qr rq O z (some L) = .ok (some (((‖braket (List.replicate L d) x.data z.data‖ ^ 2 : ℝ) : ℂ) /
      (braket (List.replicate L d) x.data x.data * braket (List.replicate L d) z.data z.data))) := by
  obtain ⟨v, x', z', e, -, -, -, -, hv⟩ := FMPS.localOverlap_spec hqr hrq O hx hz hL (i := 0) (k := L) (by omega) hD hD1 hD' hD1'
  have hxL : x.L = L := by simpa using hx.holds.len
  have hred : ∀ (As : List (ND ℂ)) (t s : List ℕ), redDens (List.replicate L d) As 0 L t s = psi As t * star (psi As s) := by
    intro As t s
    simp [redDens]
  set bx := braket (List.replicate L d) x.data x.data with hbx
  set bz := braket (List.replicate L d) z.data z.data with hbz
  have hval : (sumIdx (List.replicate L d) fun s => sumIdx (List.replicate L d) fun t =>
      redDens (List.replicate L d) z.data 0 L s t / bz * (redDens (List.replicate L d) x.data 0 L t s / bx)) =
      ((‖braket (List.replicate L d) x.data z.data‖ ^ 2 : ℝ) : ℂ) / (bx * bz) := by
    rw [← star_mul_norm, star_braket]
    conv_rhs => rw [braket, braket]
    rw [div_eq_mul_inv, mul_assoc, ← sumIdx_mul_right]
    rw [sumIdx_comm]
    refine sumIdx_congr fun t _ => ?_
    rw [← sumIdx_mul_right, ← sumIdx_mul_left]
    refine sumIdx_congr fun s _ => ?_
    rw [hred, hred, mul_inv]
    ring
  have hreal : (((‖braket (List.replicate L d) x.data z.data‖ ^ 2 : ℝ) : ℂ) / (bx * bz)) =
      (((((‖braket (List.replicate L d) x.data z.data‖ ^ 2 : ℝ) : ℂ) / (bx * bz)).re : ℝ) : ℂ) := by
    rw [hbx, hbz, braket_self, braket_self, ← Complex.ofReal_mul, ← Complex.ofReal_div, Complex.ofReal_re]
  rw [hval] at hv
  simp only [FMPS.kLocalApproxOverlap, FMPS.approxOverlap, hxL, Nat.add_sub_cancel_left, List.range_one, List.map_cons, List.map_nil, FMPS.localOverlaps]
  rw [e]
  simp only [ok_bind]
  rw [hreal, ← hv]
  simp

end overlaps

/-! ### concrete objects meeting the hypotheses -/

section examples
variable {qr rq : ND ℂ → Py (ND ℂ × ND ℂ)} (hqr : QRLaw qr) (hrq : RQLaw rq) (O : SetOrder)

example := FMPS.rhoProj_exact O exPhase_product exPhase_product (i := 1) (k := 1) (by simp) (by simp) (by simp)
/-- the first tensor of `exPhase` is real, so that the density matrix of the second site is right -/
example := FMPS.rhoProj_real_partial O exPhase_product exPhase_product (i := 1) (k := 1) (by simp) (by simp) (by simp)
  (by simp only [exPhase]; intro A hA s; simp at hA; subst hA; cases s with | nil => simp | cons a s => cases a <;> simp)
example : (exTwo 2).rhoProj O exPhase [0] = .ok none := FMPS.rhoProj_none O (D := 2) rfl (by simp) _
include hqr hrq
example := FMPS.localOverlap_product hqr hrq O exPhase_product (braket_ne_zero_honest exPhase_honest) exTwo_honest (i := 0) (k := 2)
  (by simp) (by simp) (by simp)
example := FMPS.localOverlap_product_right hqr hrq O exPhase_product (braket_ne_zero_honest exPhase_honest) exTwo_honest (D := 2) rfl (by simp)
  (i := 0) (k := 2) (by simp) (by simp) (by simp)
example := FMPS.productStateOverlap_spec O (x := exPhase) (vs := [[1, Complex.I], [2, 3]]) (by simp) exPhase_product.holds
example := FMPS.kLocal_none qr rq O exPhase_product.holds (exTwo_holds 2)
example := FMPS.kLocal_nan (k := 3) qr rq O exPhase (exTwo 2) (by simp [exPhase])
example := FMPS.kLocal_full hqr hrq O exTwo_honest exTwo_honest (D := 2) (D' := 2) (by simp) rfl (by simp) rfl (by simp)

end examples

end Xmps
