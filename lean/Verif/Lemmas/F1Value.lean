import Verif.Lemmas.F1Site
import Verif.Props.F2
import Verif.Props.TwoSite

/-!
# `F1` contracted with coordinates
-/

namespace Xmps

open Finset Spec Xmps.Ncon

/-- the amplitudes are linear in each tensor -/
theorem psi_set_linear {L d j p q k k' : ℕ} {As : List (ND ℂ)} (h : MpsChain (List.replicate L d) As 1 1) (hj : j < As.length) (hA : As[j].shape = [d, p, q])
    {B : ND ℂ} (hB : B.shape = [d, p, q]) {U : ℕ → ℕ → ND ℂ} (hU : ∀ a b, (U a b).shape = [d, p, q]) {X : ℕ → ℕ → ℂ}
    (hv : ∀ s < d, ∀ al < p, ∀ be < q, B.val [s, al, be] = ∑ a ∈ range k, ∑ b ∈ range k', X a b * (U a b).val [s, al, be]) {s : List ℕ}
    (hs : InB (List.replicate L d) s) :
    psi (As.set j B) s = ∑ a ∈ range k, ∑ b ∈ range k', X a b * psi (As.set j (U a b)) s := by
  obtain ⟨p', q', h1, h2, h3, h4⟩ := chain_site h hj
  rw [hA] at h2
  obtain ⟨rfl, rfl⟩ : p = p' ∧ q = q' := by simpa using h2
  have hlen := h.length_eq
  rw [List.length_replicate] at hlen
  have hsl : s.length = L := by simpa using hs.length_eq
  have ht : s[j]'(by omega) < d := by
    have := hs.getD_lt (k := j) (d := d) (by rw [List.getElem?_replicate, if_pos (by omega)])
    rwa [List.getD_eq_getElem _ _ (by omega)] at this
  have key : ∀ W : ND ℂ, W.shape = [d, p, q] → psi (As.set j W) s = ∑ c ∈ range p, ∑ e ∈ range q,
      amp (As.take j) (s.take j) 0 c * (W.val [s[j]'(by omega), c, e] * amp (As.drop (j + 1)) (s.drop (j + 1)) e 0) := by
    intro W hW
    rw [psi_eq_amp (ds := List.replicate L d) (chain_set hj h (by rw [hW, hA])) (by intro hn; have := congrArg List.length hn; rw [List.length_set, List.length_nil] at this; omega) hs.length_eq,
      set_cut hj]
    conv_lhs => rw [list_cut (As := s) (i := j) (by omega)]
    exact amp_mid h1 (by simp; omega) hW _ 0 0 (by omega)
  rw [key B hB]
  simp only [key _ (hU _ _), Finset.mul_sum]
  symm
  rw [sum_swap2]
  refine Finset.sum_congr rfl fun al hal => ?_
  rw [sum_swap2]
  refine Finset.sum_congr rfl fun be hbe => ?_
  rw [hv _ ht al (Finset.mem_range.1 hal) be (Finset.mem_range.1 hbe)]
  simp only [Finset.sum_mul, Finset.mul_sum]
  exact Finset.sum_congr rfl fun a _ => Finset.sum_congr rfl fun b _ => by ring

/-- a sum of two-site terms is linear -/
theorem ham_linear {L d k k' : ℕ} {H : List (ND ℂ)} (hL : H.length < L) {g : List ℕ → ℂ} {G : ℕ → ℕ → List ℕ → ℂ} {X : ℕ → ℕ → ℂ}
    (hg : ∀ t, InB (List.replicate L d) t → g t = ∑ a ∈ range k, ∑ b ∈ range k', X a b * G a b t) {s : List ℕ} (hs : InB (List.replicate L d) s) :
    hamAct d H g s = ∑ a ∈ range k, ∑ b ∈ range k', X a b * hamAct d H (G a b) s := by
  unfold hamAct
  simp only [Finset.mul_sum]
  symm
  rw [sum_swap2]
  refine Finset.sum_congr rfl fun m hm => ?_
  have hm := Finset.mem_range.1 hm
  rw [gateAct_congr (ds := List.replicate L d) (by rw [List.getElem?_replicate, if_pos (by omega)]) (by rw [List.getElem?_replicate, if_pos (by omega)]) hs hg]
  unfold gateAct
  simp only [Finset.mul_sum]
  rw [sum_swap2]
  refine Finset.sum_congr rfl fun p1 _ => ?_
  rw [sum_swap2]
  refine Finset.sum_congr rfl fun p2 _ => Finset.sum_congr rfl fun a _ => Finset.sum_congr rfl fun b _ => ?_
  ring

/-- a matrix element is linear in each tensor of the ket -/
theorem pairing_ket_linear {L d j p q k k' : ℕ} {As : List (ND ℂ)} (h : MpsChain (List.replicate L d) As 1 1) (hj : j < As.length) (hA : As[j].shape = [d, p, q])
    {B : ND ℂ} (hB : B.shape = [d, p, q]) {U : ℕ → ℕ → ND ℂ} (hU : ∀ a b, (U a b).shape = [d, p, q]) {X : ℕ → ℕ → ℂ}
    (hv : ∀ s < d, ∀ al < p, ∀ be < q, B.val [s, al, be] = ∑ a ∈ range k, ∑ b ∈ range k', X a b * (U a b).val [s, al, be])
    {H : List (ND ℂ)} (hL : H.length < L) (f : List ℕ → ℂ) :
    pairing (List.replicate L d) f (hamAct d H (psi (As.set j B))) =
      ∑ a ∈ range k, ∑ b ∈ range k', X a b * pairing (List.replicate L d) f (hamAct d H (psi (As.set j (U a b)))) := by
  rw [pairing_congr (fun s _ => rfl) (fun s hs => ham_linear hL (fun t ht => psi_set_linear h hj hA hB hU hv ht) hs), pairing_sum]
  refine Finset.sum_congr rfl fun a _ => ?_
  rw [pairing_sum]
  exact Finset.sum_congr rfl fun b _ => pairing_smul _ _ _ _

/-- a sum of Hermitian terms is Hermitian -/
theorem pairing_ham_star {L d : ℕ} {H : List (ND ℂ)} (hL : H.length < L) (hh : ∀ h ∈ H, ∀ a < d * d, ∀ b < d * d, star (h.val [b, a]) = h.val [a, b])
    (f g : List ℕ → ℂ) : star (pairing (List.replicate L d) f (hamAct d H g)) = pairing (List.replicate L d) g (hamAct d H f) := by
  have hp : ∀ f g : List ℕ → ℂ, pairing (List.replicate L d) f (hamAct d H g) =
      ∑ m ∈ range H.length, pairing (List.replicate L d) f (gateAct d (H.getD m ⟨[], fun _ => 0⟩) m (m + 1) g) := by
    intro f g
    unfold hamAct
    rw [pairing_sum]
  rw [hp, hp, star_sum]
  refine Finset.sum_congr rfl fun m hm => ?_
  have hm := Finset.mem_range.1 hm
  have hH := hh (H.getD m ⟨[], fun _ => 0⟩) (by rw [List.getD_eq_getElem _ _ hm]; exact List.getElem_mem hm)
  generalize H.getD m ⟨[], fun _ => 0⟩ = h at hH
  have ed : List.replicate L d = (List.replicate L d).take m ++ d :: d :: (List.replicate L d).drop (m + 2) := by
    conv_lhs => rw [replicate_cut (L := L) (d := d) (i := m) (by omega)]
    rw [List.drop_eq_getElem_cons (i := m + 1) (by simp; omega)]
    simp
  have hl0 : ((List.replicate L d).take m).length = m := by simp; omega
  rw [ed]
  have key : ∀ f g : List ℕ → ℂ, pairing ((List.replicate L d).take m ++ d :: d :: (List.replicate L d).drop (m + 2)) f (gateAct d h m (m + 1) g) =
      sumIdx ((List.replicate L d).take m) fun s0 => sumIdx ((List.replicate L d).drop (m + 2)) fun s3 =>
        ∑ t ∈ range d, ∑ u ∈ range d, ∑ p1 ∈ range d, ∑ p2 ∈ range d,
          star (f (s0 ++ t :: u :: s3)) * (h.val [t * d + u, p1 * d + p2] * g (s0 ++ p1 :: p2 :: s3)) := by
    intro f g
    unfold pairing
    rw [sumIdx_append]
    refine sumIdx_congr fun s0 hs0 => ?_
    simp only [sumIdx_cons, ← sumIdx_finset_sum]
    refine sumIdx_congr fun s3 _ => Finset.sum_congr rfl fun t _ => Finset.sum_congr rfl fun u _ => ?_
    rw [gateAct_next d h g (by rw [hs0.length_eq, hl0])]
    simp only [Finset.mul_sum]
  rw [key, key, sumIdx_star]
  refine sumIdx_congr fun s0 _ => ?_
  rw [sumIdx_star]
  refine sumIdx_congr fun s3 _ => ?_
  simp only [star_sum, star_mul', star_star]
  rw [sum_swap2]
  refine Finset.sum_congr rfl fun p1 hp1 => ?_
  rw [sum_swap2]
  refine Finset.sum_congr rfl fun p2 hp2 => Finset.sum_congr rfl fun t ht => Finset.sum_congr rfl fun u hu => ?_
  simp only [Finset.mem_range] at hp1 hp2 ht hu
  rw [hH _ (by nlinarith) _ (by nlinarith)]
  ring

/-- the terms as they enter `F1(i, j)` -/
def f1Ham (i : ℕ) (H : List (ND ℂ)) : List (ND ℂ) := H.mapIdx (f1Mat i)

theorem f1Ham_length (i : ℕ) (H : List (ND ℂ)) : (f1Ham i H).length = H.length := by simp [f1Ham]

theorem f1Ham_getD (i : ℕ) (H : List (ND ℂ)) {m : ℕ} (hm : m < H.length) (z : ND ℂ) : (f1Ham i H).getD m z = f1Mat i m (H.getD m z) := by
  rw [List.getD_eq_getElem _ _ (by rw [f1Ham_length]; exact hm), List.getD_eq_getElem _ _ hm]
  simp [f1Ham]

/-- symmetric terms enter as they are -/
theorem f1Ham_symm {L d i : ℕ} {H : List (ND ℂ)} (hL : H.length < L) (hs : ∀ h ∈ H, ∀ a < d * d, ∀ b < d * d, h.val [a, b] = h.val [b, a]) (f : List ℕ → ℂ)
    {s : List ℕ} (hi : InB (List.replicate L d) s) : hamAct d (f1Ham i H) f s = hamAct d H f s := by
  unfold hamAct
  rw [f1Ham_length]
  refine Finset.sum_congr rfl fun m hm => ?_
  have hm := Finset.mem_range.1 hm
  rw [f1Ham_getD _ _ hm]
  have hH := hs (H.getD m ⟨[], fun _ => 0⟩) (by rw [List.getD_eq_getElem _ _ hm]; exact List.getElem_mem hm)
  generalize H.getD m ⟨[], fun _ => 0⟩ = h at hH
  unfold f1Mat
  split_ifs
  · rfl
  · unfold gateAct
    have a1 := hi.getD_lt (k := m) (d := d) (by rw [List.getElem?_replicate, if_pos (by omega)])
    have a2 := hi.getD_lt (k := m + 1) (d := d) (by rw [List.getElem?_replicate, if_pos (by omega)])
    refine Finset.sum_congr rfl fun p1 hp1 => Finset.sum_congr rfl fun p2 hp2 => ?_
    simp only [Finset.mem_range] at hp1 hp2
    rw [hH _ (by nlinarith) _ (by nlinarith)]
    simp [matT]

section
variable {L d : ℕ} {x : FMPS ℂ} {ls rs : List (ND ℂ)} {E : FMPS.InvEnvs} {N : ℝ} {vL l r : ℕ → ND ℂ} {p q k : ℕ → ℕ} {lam rho : ℕ → ℕ → ℝ} {i j : ℕ}

/-- the terms after the varied site of the bra vanish -/
theorem F2Ctx.vanish_ket (c : F2Ctx L d x ls rs E N vL l r p q k lam rho) (hij : i < j) (hj : j < L) {m : ℕ} (hm : i < m) {h V : ND ℂ}
    (hV : V.shape = [d, p j, q j]) {U : ND ℂ} (hU : U.shape = [d, p i, q i])
    (hg : LeftGauge d (p i) (q i) (leftEnv ((List.replicate L d).take i) (x.data.take i)) (x.data[i]'(by rw [c.len]; omega)) U) :
    pairing (List.replicate L d) (psi (x.data.set i U)) (gateAct d h m (m + 1) (psi (x.data.set j V))) = 0 := by
  have hl := c.len
  have hs := c.site i (by omega)
  have hl1 : ((List.replicate L d).take i).length = i := by simp; omega
  have hp1 : MpsChain ((List.replicate L d).take (i + 1)) (x.data.take (i + 1)) 1 (q i) := by
    obtain ⟨p', q', g1, g2, g3, g4⟩ := chain_site c.hx.chain (i := i) (by omega)
    rw [hs.hA] at g2
    have : q i = q' := by simpa using (List.cons.inj (List.cons.inj (List.cons.inj g2).2).2).1
    rw [this]
    exact g3
  rw [set_cut (by omega : i < x.data.length), set_tail hij (by omega)]
  conv_lhs => rw [replicate_cut (L := L) (d := d) (i := i) (by omega)]
  have ht := c.tail_chain (V := V) hj (by omega) hV hp1
  exact inner_gauge hs.hp hU hs.hn hg (f := gateAct d h m (m + 1) (psi (x.data.take i ++ x.data[i] :: tailV x.data j (i + 1) V)))
    (g := fun s2 c => ∑ p1 ∈ range d, ∑ p2 ∈ range d, h.val [s2.getD (m - ((List.replicate L d).take i).length - 1) 0 * d +
      s2.getD (m + 1 - ((List.replicate L d).take i).length - 1) 0, p1 * d + p2] *
        amp (tailV x.data j (i + 1) V) ((s2.set (m - ((List.replicate L d).take i).length - 1) p1).set (m + 1 - ((List.replicate L d).take i).length - 1) p2) c 0)
    fun s1 hs1 t _ s2 hs2 => gate_agree hs.hp hs.hA ht (by rw [hl1]; omega) hs1 hs2 t

/-- `G_` for `i < j`, entry by entry -/
theorem F2Ctx.f1sorted (c : F2Ctx L 2 x ls rs E N vL l r p q k lam rho) (O : SetOrder) (hij : i < j) (hj : j < L) {H : List (ND ℂ)} (hL : H.length < L)
    (hH : ∀ h ∈ H, h.shape = [4, 4]) :
    ∃ G, FMPS.f1Sorted O x ls rs ((List.range L).map vL) E H i j = .ok G ∧ G.shape = [k i, q i, k j, q j] ∧
      ∀ a < k i, ∀ b < q i, ∀ c1 < k j, ∀ e < q j, G.val [a, b, c1, e] = (if i = 0 then ((Real.sqrt N : ℝ) : ℂ) else 1) *
        ∑ m ∈ range H.length, if m ≤ i then c.f1Coeff i j m (H.getD m ⟨[], fun _ => 0⟩) a b c1 e else 0 := by
  have hl := c.len
  have hsi := c.site i (by omega)
  have eH : (H.mapM fun h => h.reshape [2, 2, 2, 2]) = .ok (H.map fun h => h.reshapeR [2, 2, 2, 2]) := by
    refine mapM_ok ?_
    intro h hh
    rw [ND.reshape_ok (by rw [hH h hh]; simp)]
  obtain ⟨Lbs, Rds, e1, hRds⟩ := c.f1Site O (i := i) (by omega)
  obtain ⟨Rus, Rbs, e2, hRus⟩ := c.f1Far O (j := j) (by omega) hj
  unfold FMPS.f1Sorted
  rw [c.coord (by omega), ok_bind]
  simp only
  rw [c.coord hj, ok_bind]
  simp only
  rw [pyGet_ok (by omega : i < x.data.length), ok_bind, dim0 hsi.hA, dim1 hsi.hA, dim2 hsi.hA]
  by_cases hq : 2 * p i = q i
  · rw [if_pos hq]
    refine ⟨_, rfl, rfl, ?_⟩
    intro a ha
    have := hsi.count
    omega
  · rw [if_neg hq, eH, ok_bind, e1, ok_bind]
    simp only
    rw [e2, ok_bind]
    simp only
    obtain ⟨G, v1, v2, v3⟩ := f1Loop_ok (O := O) (x := x) (ls := ls) (rs := rs) (vs := (List.range L).map vL) (E := E) (Lbs := Lbs) (Rds := Rds) (Rus := Rus)
      (Rbs := Rbs) (i := i) (j := j) (k1 := k i) (q1 := q i) (k2 := k j) (q2 := q j) (by omega)
      (fun m a b c1 e => (if i = 0 then ((Real.sqrt N : ℝ) : ℂ) else 1) * c.f1Coeff i j m (H.getD m ⟨[], fun _ => 0⟩) a b c1 e)
      ((H.map fun h => h.reshapeR [2, 2, 2, 2]).zipIdx.reverse) (zerosND [k i, q i, k j, q j]) rfl (by
        rintro ⟨h4, m⟩ hm hmi
        rw [List.mem_reverse] at hm
        obtain ⟨hm1, hm2⟩ := List.mem_zipIdx' hm
        rw [List.length_map] at hm1
        simp only at hm1 hm2 hmi
        have : Four 2 (H.getD m ⟨[], fun _ => 0⟩) h4 := by
          rw [hm2, List.getElem_map]
          simp only [List.getD_eq_getElem?_getD, List.getElem?_eq_getElem hm1, Option.getD_some]
          exact four_reshape (hH _ (List.getElem_mem hm1))
        exact c.f1term O hij hj hmi this hRus hRds)
    refine ⟨G, v1, v2, ?_⟩
    intro a ha b hb c1 hc1 e he
    rw [v3 a ha b hb c1 hc1 e he]
    refine (congrArg₂ (· + ·) (x' := (0 : ℂ)) (by simp [zerosND]) ((zipIdx_sum (H.map fun h : ND ℂ => h.reshapeR [2, 2, 2, 2]) (fun m => if m ≤ i then
      (if i = 0 then ((Real.sqrt N : ℝ) : ℂ) else 1) * c.f1Coeff i j m (H.getD m ⟨[], fun _ => 0⟩) a b c1 e else 0)))).trans ?_
    rw [List.length_map, zero_add, Finset.mul_sum]
    refine Finset.sum_congr rfl fun m _ => ?_
    split_ifs <;> simp

/-- if the sites are neighbours, or the bond two sites after the first is trivial, every term is a matrix element -/
theorem F2Ctx.f1Coeff_eq (c : F2Ctx L d x ls rs E N vL l r p q k lam rho) (hij : i < j) (hj : j < L) (hb : j = i + 1 ∨ q (i + 1) = 1) {m : ℕ} {h : ND ℂ}
    {a b c1 e : ℕ} (hbq : b < q i) :
    c.f1Coeff i j m h a b c1 e = pairing (List.replicate L d) (psi (x.data.set i (c.unit i a b)))
      (gateAct d (f1Mat i m h) m (m + 1) (psi (x.data.set j (c.unit j c1 e)))) := by
  unfold F2Ctx.f1Coeff
  by_cases hm : m = i ∧ j ≠ i + 1
  · rw [if_pos hm]
    obtain ⟨rfl, hm2⟩ := hm
    have hb : q (m + 1) = 1 := by omega
    have hl := c.len
    have hs := c.site m (by omega)
    have hs1 := c.site (m + 1) (by omega)
    have hlk := c.link (i := m) (by omega)
    have hB : x.data[m + 1].shape = [d, q m, q (m + 1)] := by rw [hlk]; exact hs1.hA
    have hp2 : MpsChain ((List.replicate L d).take (m + 2)) (x.data.take (m + 2)) 1 (q (m + 1)) := by
      obtain ⟨p', q', g1, g2, g3, g4⟩ := chain_site c.hx.chain (i := m + 1) (by omega)
      rw [hs1.hA] at g2
      have : q (m + 1) = q' := by simpa using (List.cons.inj (List.cons.inj (List.cons.inj g2).2).2).1
      rw [this]
      exact g3
    have edm : List.replicate L d = (List.replicate L d).take m ++ d :: d :: (List.replicate L d).drop (m + 2) := by
      conv_lhs => rw [replicate_cut (L := L) (d := d) (i := m) (by omega)]
      rw [List.drop_eq_getElem_cons (i := m + 1) (by simp; omega)]
      simp
    have hlen0 : ((List.replicate L d).take m).length = m := by simp; omega
    rw [set_cut (i := m) (by omega), List.drop_eq_getElem_cons (i := m + 1) (by omega), set_tail (i := m) (j := j) (by omega) (by omega),
      tailV_step (n := m + 1) (by omega) (by omega), f1Mat, if_neg (by omega)]
    have := pair_first (h := matT h) (rho := rho m) (vL := vL m) (a := a) hs.hp hs.hA hB (c.tail_chain (V := c.unit j c1 e) hj (by omega) rfl hp2) hB hs1.hn hs.pos
      hs.left hbq
    rw [← edm, hlen0] at this
    refine Eq.trans ?_ this.symm
    unfold f1Gap
    rw [List.getD_eq_getElem _ _ (by omega : m < x.data.length), List.getD_eq_getElem _ _ (by omega : m + 1 < x.data.length), hb]
    simp
  · rw [if_neg hm]

/-- `G_` contracted with the coordinates of two tangent tensors, `i < j` -/
theorem F2Ctx.f1value (c : F2Ctx L 2 x ls rs E N vL l r p q k lam rho) (O : SetOrder) (hij : i < j) (hj : j < L) (hb : j = i + 1 ∨ q (i + 1) = 1)
    {H : List (ND ℂ)} (hL : H.length < L) (hH : ∀ h ∈ H, h.shape = [4, 4]) :
    ∃ G, FMPS.f1Sorted O x ls rs ((List.range L).map vL) E H i j = .ok G ∧ G.shape = [k i, q i, k j, q j] ∧
      ∀ (X Y : ℕ → ℕ → ℂ) (Bi Bj : ND ℂ), Bi.shape = [2, p i, q i] → Bj.shape = [2, p j, q j] →
        (∀ s < 2, ∀ a < p i, ∀ b < q i, Bi.val [s, a, b] = siteTensor (k i) (vL i) (lam i) (rho i) X s a b) →
        (∀ s < 2, ∀ a < p j, ∀ b < q j, Bj.val [s, a, b] = siteTensor (k j) (vL j) (lam j) (rho j) Y s a b) →
        ∑ a ∈ range (k i), ∑ b ∈ range (q i), ∑ c ∈ range (k j), ∑ e ∈ range (q j), star (X a b) * Y c e * G.val [a, b, c, e] =
          (if i = 0 then ((Real.sqrt N : ℝ) : ℂ) else 1) *
            pairing (List.replicate L 2) (psi (x.data.set i Bi)) (hamAct 2 (f1Ham i H) (psi (x.data.set j Bj))) := by
  have hl := c.len
  obtain ⟨G, e, hG, hGv⟩ := c.f1sorted O hij hj hL hH
  refine ⟨G, e, hG, ?_⟩
  intro X Y Bi Bj hBi hBj hX hY
  have h1 := pairing_set_linear (j := i) (k := k i) (k' := q i) c.hx.chain (by omega) (c.site i (by omega)).hA hBi
    (U := fun a b => c.unit i a b) (fun _ _ => rfl) (X := X) (fun s hs a ha b hb => by rw [hX s hs a ha b hb, c.unit_sum X hb])
    (hamAct 2 (f1Ham i H) (psi (x.data.set j Bj)))
  rw [h1, Finset.mul_sum]
  refine Finset.sum_congr rfl fun a ha => ?_
  rw [Finset.mul_sum]
  refine Finset.sum_congr rfl fun b hb' => ?_
  have h2 := pairing_ket_linear (j := j) (k := k j) (k' := q j) c.hx.chain (by omega) (c.site j (by omega)).hA hBj
    (U := fun a b => c.unit j a b) (fun _ _ => rfl) (X := Y) (fun s hs a ha b hb => by rw [hY s hs a ha b hb, c.unit_sum Y hb])
    (H := f1Ham i H) (by rw [f1Ham_length]; exact hL) (psi (x.data.set i (c.unit i a b)))
  rw [h2, Finset.mul_sum, Finset.mul_sum]
  refine Finset.sum_congr rfl fun c1 hc1 => ?_
  rw [Finset.mul_sum, Finset.mul_sum]
  refine Finset.sum_congr rfl fun e1 he1 => ?_
  simp only [Finset.mem_range] at ha hb' hc1 he1
  have h3 : pairing (List.replicate L 2) (psi (x.data.set i (c.unit i a b))) (hamAct 2 (f1Ham i H) (psi (x.data.set j (c.unit j c1 e1)))) =
      ∑ m ∈ range H.length, if m ≤ i then c.f1Coeff i j m (H.getD m ⟨[], fun _ => 0⟩) a b c1 e1 else 0 := by
    unfold hamAct
    rw [pairing_sum, f1Ham_length]
    refine Finset.sum_congr rfl fun m hm => ?_
    rw [f1Ham_getD _ _ (Finset.mem_range.1 hm)]
    by_cases h : m ≤ i
    · rw [if_pos h, c.f1Coeff_eq hij hj hb hb']
    · rw [if_neg h]
      exact c.vanish_ket hij hj (by omega) rfl rfl (c.gauge (by omega) ha b)
  rw [hGv a ha b hb' c1 hc1 e1 he1, ← h3]
  ring

end

end Xmps
