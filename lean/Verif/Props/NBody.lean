import Verif.Lemmas.Kron
import Verif.Props.TwoSite

/-!
# C28: `n_body`
-/

namespace Xmps.Spin

open Finset Xmps.Spec

variable {K : Type} [CommRing K] {ilog : ℕ → ℕ → ℕ}

theorem prodElem_congr : ∀ (ms : List ℕ) (As Bs : List (ND K)), As.length = Bs.length →
    (∀ j (h1 : j < As.length) (h2 : j < Bs.length), ∀ a b, As[j].val [a, b] = Bs[j].val [a, b]) → ∀ s t, prodElem As s t = prodElem Bs s t
  | _, [], [], _, _, s, t => by cases s <;> cases t <;> rfl
  | _, [], _ :: _, h, _, _, _ => by simp at h
  | _, _ :: _, [], h, _, _, _ => by simp at h
  | ms, A :: As, B :: Bs, h, hv, s, t => by
    match s, t with
    | [], _ => simp [prodElem]
    | _ :: _, [] => simp [prodElem]
    | a :: s, b :: t =>
      simp only [prodElem]
      rw [prodElem_congr ms As Bs (by simpa using h) fun j h1 h2 a b => by
        have := hv (j + 1) (by simp; omega) (by simp; omega) a b
        simpa using this]
      have := hv 0 (by simp) (by simp) a b
      simp only [List.getElem_cons_zero] at this
      rw [this]

theorem Squares_of : ∀ (d : ℕ) (As : List (ND K)), (∀ A ∈ As, A.shape = [d, d]) → Squares (List.replicate As.length d) As
  | _, [], _ => trivial
  | d, A :: As, h => ⟨h A (by simp), Squares_of d As fun B hB => h B (by simp [hB])⟩

/-- two lists of square matrices with the same entries have the same Kronecker product -/
theorem tensor_congr (d : ℕ) (As Bs : List (ND K)) (hne : As ≠ []) (hl : As.length = Bs.length) (hA : ∀ A ∈ As, A.shape = [d, d])
    (hB : ∀ A ∈ Bs, A.shape = [d, d])
    (hv : ∀ j (h1 : j < As.length) (h2 : j < Bs.length), ∀ a b, As[j].val [a, b] = Bs[j].val [a, b]) :
    ∃ R R', tensor As = .ok R ∧ tensor Bs = .ok R' ∧ R.shape = R'.shape ∧ ∀ s t, InB (List.replicate As.length d) s →
      InB (List.replicate As.length d) t → matElem (List.replicate As.length d) R s t = matElem (List.replicate As.length d) R' s t := by
  obtain ⟨R, h1, h2, h3⟩ := tensor_spec _ As hne (Squares_of d As hA)
  obtain ⟨R', h1', h2', h3'⟩ := tensor_spec _ Bs (by intro e; rw [e] at hl; exact hne (List.eq_nil_of_length_eq_zero hl)) (Squares_of d Bs hB)
  refine ⟨R, R', h1, h1', by rw [h2, h2', hl], ?_⟩
  intro s t hs ht
  rw [matElem, matElem, h3 s t hs ht]
  rw [hl] at hs ht ⊢
  rw [h3' s t hs ht]
  exact prodElem_congr [] As Bs hl hv s t

/-- the list built by `n_body`, entry by entry -/
theorem nBody_list (op : ND K) (d : ℕ) (i n : ℕ) (hi : i < n) (j : ℕ) (hj : j < n) (a b : ℕ) :
    (siteFactor op d (if ((i : ℤ) + 1) - 1 - j = 0 then 1 else 0)).val [a, b] =
      ((List.replicate i (eyeND d) ++ op :: List.replicate (n - 1 - i) (eyeND d))[j]'(by simp; omega)).val [a, b] := by
  rcases lt_trichotomy j i with h | h | h
  · rw [List.getElem_append_left (by simpa using h), List.getElem_replicate, if_neg (by omega)]
    simp [siteFactor]
  · subst h
    rw [List.getElem_append_right (by simp), if_pos (by omega)]
    simp [siteFactor]
  · rw [List.getElem_append_right (by simp; omega), if_neg (by omega)]
    obtain ⟨m, rfl⟩ := Nat.exists_eq_add_of_lt h
    simp [siteFactor, show i + m + 1 - i = m + 1 by omega]

/-- **C28** `n_body(op, i, n)` is `op` at site `i`, counted from 1, identities elsewhere. -/
theorem nBody_spec {op : ND K} {d : ℕ} (hop : op.shape = [d, d]) {i n : ℕ} (hi : 1 ≤ i) (hn : i ≤ n) :
    ∃ R, nBody ilog op i n none = .ok R ∧ R.shape = [d ^ n, d ^ n] ∧
      ∀ s t, InB (List.replicate n d) s → InB (List.replicate n d) t →
        matElem (List.replicate n d) R s t = blockElem d op (i - 1) 1 s t := by
  obtain ⟨i, rfl⟩ := Nat.exists_eq_add_of_le' hi
  have hb := tensor_block d i 1 (n - 1 - i) op (by simpa using hop)
  have en : i + 1 + (n - 1 - i) = n := by omega
  rw [en] at hb
  obtain ⟨R', b1, b2, b3⟩ := hb
  have hln : ((List.range n).map fun j : ℕ => siteFactor op d (if ((i + 1 : ℕ) : ℤ) - 1 - j = 0 then 1 else 0)).length = n := by simp
  have hc := tensor_congr d ((List.range n).map fun j : ℕ => siteFactor op d (if ((i + 1 : ℕ) : ℤ) - 1 - j = 0 then 1 else 0))
    (List.replicate i (eyeND d) ++ op :: List.replicate (n - 1 - i) (eyeND d))
    (by intro e; rw [e] at hln; simp at hln; omega) (by rw [hln]; simp; omega)
    (by intro A hA; obtain ⟨j, _, rfl⟩ := List.mem_map.1 hA; rfl)
    (by
      intro A hA
      rw [List.mem_append, List.mem_cons, List.mem_replicate, List.mem_replicate] at hA
      rcases hA with ⟨_, rfl⟩ | rfl | ⟨_, rfl⟩
      · rfl
      · exact hop
      · rfl)
    (by
      intro j h1 h2 a b
      rw [hln] at h1
      have := nBody_list op d i n (by omega) j h1 a b
      rw [← this]
      simp)
  rw [hln] at hc
  obtain ⟨R, R'', c1, c2, c3, c4⟩ := hc
  rw [b1] at c2
  cases c2
  refine ⟨R, ?_, by rw [c3, b2], fun s t hs ht => by rw [c4 s t hs ht, b3 s t hs ht]; rfl⟩
  simp only [nBody, hop, if_true, ok_bind]
  rw [if_pos (by push_cast; omega)]
  exact c1

/-- **C28** sites beyond the end raise -/
theorem nBody_high {op : ND K} {d : ℕ} (hop : op.shape = [d, d]) (n : ℕ) (i : ℤ) (hi : (n : ℤ) < i) :
    nBody ilog op i n none = .error .exception := by
  simp only [nBody, hop, if_true, ok_bind]
  rw [if_neg (by omega)]

/-- **C28, negation** sites before the beginning do not raise: `op` is silently dropped and the identity returned. -/
theorem nBody_low {op : ND K} {d : ℕ} (hop : op.shape = [d, d]) {n : ℕ} (hn : 1 ≤ n) (i : ℤ) (hi : i ≤ 0) :
    ∃ R, nBody ilog op i n none = .ok R ∧ R.shape = [d ^ n, d ^ n] ∧
      ∀ s t, InB (List.replicate n d) s → InB (List.replicate n d) t →
        matElem (List.replicate n d) R s t = if s = t then 1 else 0 := by
  have hln : ((List.range n).map fun j : ℕ => siteFactor op d (if i - 1 - j = 0 then 1 else 0)).length = n := by simp
  have hc := tensor_spec (List.replicate n d) ((List.range n).map fun j : ℕ => siteFactor op d (if i - 1 - j = 0 then 1 else 0))
    (by intro e; rw [e] at hln; simp at hln; omega) (by
      have := Squares_of d ((List.range n).map fun j : ℕ => siteFactor op d (if i - 1 - j = 0 then 1 else 0))
        (by intro A hA; obtain ⟨j, _, rfl⟩ := List.mem_map.1 hA; rfl)
      rwa [hln] at this)
  obtain ⟨R, c1, c2, c3⟩ := hc
  refine ⟨R, ?_, by rw [c2]; simp, ?_⟩
  · simp only [nBody, hop, if_true, ok_bind]
    rw [if_pos (by omega)]
    exact c1
  · intro s t hs ht
    rw [matElem, c3 s t hs ht, prodElem_congr [] _ (List.replicate n (eyeND d)) (by simp), prodElem_eye d n s t]
    · simpa using hs.length_eq
    · simpa using ht.length_eq
    · intro j h1 h2 a b
      rw [List.getElem_map, List.getElem_range, List.getElem_replicate, if_neg (by omega)]
      simp [siteFactor]

/-- **C28** with a local dimension given the chain has `n + 1` sites and the operator, on `k` sites, starts at site
`i` counted from **0**. -/
theorem nBody_d {op : ND K} {d k : ℕ} (hop : op.shape = [d ^ k, d ^ k]) (hlog : ilog (d ^ k) d = k) {i n : ℕ} (hn : i + k ≤ n + 1) (hi : i ≤ n) :
    ∃ R, nBody ilog op i n (some d) = .ok R ∧ R.shape = [d ^ (n + 1), d ^ (n + 1)] ∧
      ∀ s t, InB (List.replicate (n + 1) d) s → InB (List.replicate (n + 1) d) t →
        matElem (List.replicate (n + 1) d) R s t = blockElem d op i k s t := by
  have hb := tensor_block d i k (n + 1 - k - i) op hop
  have en : i + k + (n + 1 - k - i) = n + 1 := by omega
  rw [en] at hb
  obtain ⟨R, b1, b2, b3⟩ := hb
  refine ⟨R, ?_, b2, b3⟩
  simp only [nBody, hop, hlog, ok_bind]
  rw [if_pos (by omega), pyInsert]
  have hneg : ¬ ((i : ℤ) - 1 + 1 < 0) := by omega
  simp only [hneg, if_false, show ((i : ℤ) - 1 + 1).toNat = i by omega, List.take_replicate, List.drop_replicate]
  rw [show min i (n + 1 - k) = i by omega]
  exact b1

/-! ### products -/

theorem sumIdx_single : ∀ (ds : List ℕ) (f : List ℕ → K) (u : List ℕ), InB ds u → (∀ v, InB ds v → v ≠ u → f v = 0) → sumIdx ds f = f u
  | [], f, [], _, _ => by simp
  | d :: ds, f, a :: u, h, hz => by
    rw [InB_cons] at h
    rw [sumIdx_cons, Finset.sum_eq_single a]
    · exact sumIdx_single ds (fun v => f (a :: v)) u h.2 fun v hv hne => hz (a :: v) ⟨h.1, hv⟩ (by simpa using hne)
    · intro b hb hne
      rw [sumIdx_congr (g := fun _ => 0) fun v hv => hz (b :: v) ⟨Finset.mem_range.1 hb, hv⟩ (by simp [hne]), sumIdx_zero]
    · intro hn
      exact absurd (Finset.mem_range.2 h.1) hn
  | [], f, _ :: _, h, _ => by simp at h
  | _ :: _, f, [], h, _ => by simp at h

/-- the condition of `blockElem` for one site -/
theorem agree_iff {d n : ℕ} {s t : List ℕ} (hs : s.length = n) (ht : t.length = n) (i : ℕ) (hi : i < n) :
    (s.take i = t.take i ∧ s.drop (i + 1) = t.drop (i + 1)) ↔ ∀ k, k ≠ i → s[k]? = t[k]? := by
  constructor
  · rintro ⟨h1, h2⟩ k hk
    rcases lt_or_gt_of_ne hk with h | h
    · have := congrArg (·[k]?) h1
      simpa [List.getElem?_take, h] using this
    · have := congrArg (·[k - (i + 1)]?) h2
      simpa [List.getElem?_drop, show i + 1 + (k - (i + 1)) = k by omega] using this
  · intro h
    constructor
    · apply List.ext_getElem?
      intro k
      by_cases hk : k < i
      · simp [List.getElem?_take, hk, h k (by omega)]
      · simp [List.getElem?_take, hk]
    · apply List.ext_getElem?
      intro k
      simp [List.getElem?_drop, h (i + 1 + k) (by omega)]

theorem site_val {i n : ℕ} {s : List ℕ} (hs : s.length = n) (hi : i < n) (d : ℕ) :
    ravel (List.replicate 1 d) ((s.drop i).take 1) = s.getD i 0 := by
  have : (s.drop i).take 1 = [s.getD i 0] := by
    rw [List.drop_eq_getElem_cons (show i < s.length by omega), List.take_succ_cons, List.take_zero, List.getD_eq_getElem?_getD,
      List.getElem?_eq_getElem (show i < s.length by omega), Option.getD_some]
  rw [this]
  simp

theorem blockElem_site {d n : ℕ} {s t : List ℕ} (X : ND K) (hs : s.length = n) (ht : t.length = n) (i : ℕ) (hi : i < n) :
    ((∀ k, k ≠ i → s[k]? = t[k]?) → blockElem d X i 1 s t = X.val [s.getD i 0, t.getD i 0]) ∧
    ((¬ ∀ k, k ≠ i → s[k]? = t[k]?) → blockElem d X i 1 s t = 0) := by
  have := agree_iff (d := d) hs ht i hi
  refine ⟨fun h => ?_, fun h => ?_⟩
  · rw [blockElem, if_pos (this.2 h), site_val hs hi, site_val ht hi]
  · rw [blockElem, if_neg (fun e => h (this.1 e))]

/-- the product of operators at two different sites -/
theorem block_mul_ne {d n : ℕ} (A B : ND K) {i j : ℕ} (hi : i < n) (hj : j < n) (hij : i ≠ j) {s t : List ℕ}
    (hs : InB (List.replicate n d) s) (ht : InB (List.replicate n d) t) :
    sumIdx (List.replicate n d) (fun u => blockElem d A i 1 s u * blockElem d B j 1 u t) =
      if ∀ k < n, k ≠ i → k ≠ j → s[k]? = t[k]? then A.val [s.getD i 0, t.getD i 0] * B.val [s.getD j 0, t.getD j 0] else 0 := by
  have ls : s.length = n := by simpa using hs.length_eq
  have lt : t.length = n := by simpa using ht.length_eq
  have hti : t.getD i 0 < d := InB.getD_lt ht (by simp [List.getElem?_replicate, hi])
  have hu : InB (List.replicate n d) (s.set i (t.getD i 0)) := InB.set hs (by simp [List.getElem?_replicate, hi]) hti
  have gi : t[i]? = some (t.getD i 0) := by simp [List.getD_eq_getElem?_getD, List.getElem?_eq_getElem (show i < t.length by omega)]
  rw [sumIdx_single _ _ _ hu]
  · have lu : (s.set i (t.getD i 0)).length = n := by simp [ls]
    rw [((blockElem_site A ls lu i hi).1 fun k hk => by rw [List.getElem?_set_ne (Ne.symm hk)])]
    have e1 : (s.set i (t.getD i 0)).getD i 0 = t.getD i 0 := by
      simp [List.getElem?_set, ls, hi]
    have e2 : (s.set i (t.getD i 0)).getD j 0 = s.getD j 0 := by
      simp [List.getD_eq_getElem?_getD, List.getElem?_set_ne hij]
    rw [e1]
    by_cases hc : ∀ k < n, k ≠ i → k ≠ j → s[k]? = t[k]?
    · rw [if_pos hc, ((blockElem_site B lu lt j hj).1 fun k hk => ?_), e2]
      by_cases hk2 : k = i
      · subst hk2
        rw [gi]
        simp [List.getElem?_set, ls, hi]
      · rw [List.getElem?_set_ne (Ne.symm hk2)]
        by_cases hkn : k < n
        · exact hc k hkn hk2 hk
        · rw [List.getElem?_eq_none (by omega), List.getElem?_eq_none (by omega)]
    · rw [if_neg hc, ((blockElem_site B lu lt j hj).2 fun h => hc fun k hk h1 h2 => ?_), mul_zero]
      have := h k h2
      rwa [List.getElem?_set_ne (Ne.symm h1)] at this
  · intro v hv hne
    have lv : v.length = n := by simpa using hv.length_eq
    by_cases h1 : ∀ k, k ≠ i → s[k]? = v[k]?
    · by_cases h2 : ∀ k, k ≠ j → v[k]? = t[k]?
      · exfalso
        apply hne
        apply List.ext_getElem?
        intro k
        by_cases hk : k = i
        · subst hk
          rw [h2 k hij, gi]
          simp [List.getElem?_set, ls, hi]
        · rw [List.getElem?_set_ne (Ne.symm hk), h1 k hk]
      · rw [((blockElem_site B lv lt j hj).2 h2), mul_zero]
    · rw [((blockElem_site A ls lv i hi).2 h1), zero_mul]

theorem sum_mat {R R' : ND K} {N : List ℕ} {P : List ℕ → List ℕ → K} {P' : List ℕ → List ℕ → K}
    (hR : ∀ s t, InB N s → InB N t → matElem N R s t = P s t) (hR' : ∀ s t, InB N s → InB N t → matElem N R' s t = P' s t)
    {s t : List ℕ} (hs : InB N s) (ht : InB N t) :
    ∑ c ∈ range N.prod, R.val [ravel N s, c] * R'.val [c, ravel N t] = sumIdx N fun u => P s u * P' u t := by
  rw [sumIdx_eq_range]
  refine Finset.sum_congr rfl fun c hc => ?_
  have hc' := Finset.mem_range.1 hc
  have h1 := hR s _ hs (InB_unravel hc')
  have h2 := hR' _ t (InB_unravel hc') ht
  rw [matElem, ravel_unravel hc'] at h1 h2
  rw [h1, h2]

/-- **C28** operators at different sites commute -/
theorem nBody_commute {A B : ND K} {d : ℕ} (hA : A.shape = [d, d]) (hB : B.shape = [d, d]) {i j n : ℕ} (hi : 1 ≤ i) (hin : i ≤ n)
    (hj : 1 ≤ j) (hjn : j ≤ n) (hij : i ≠ j) :
    ∃ R S RS SR, nBody ilog A i n none = .ok R ∧ nBody ilog B j n none = .ok S ∧ R.matmul S = .ok RS ∧ S.matmul R = .ok SR ∧
      RS.shape = [d ^ n, d ^ n] ∧ RS ≈ SR := by
  obtain ⟨R, r1, r2, r3⟩ := nBody_spec (ilog := ilog) hA hi hin
  obtain ⟨S, s1, s2, s3⟩ := nBody_spec (ilog := ilog) hB hj hjn
  obtain ⟨RS, m1, m2, m3⟩ := ND.matmul22 r2 s2
  obtain ⟨SR, k1, k2, k3⟩ := ND.matmul22 s2 r2
  refine ⟨R, S, RS, SR, r1, s1, m1, k1, m2, ND.eqv_def.2 ⟨by rw [m2, k2], ?_⟩⟩
  intro idx hidx
  rw [m2] at hidx
  match idx, hidx with
  | [a, b], h =>
    rw [InB_cons, InB_cons] at h
    have hp : (List.replicate n d).prod = d ^ n := by simp
    have ha : a < (List.replicate n d).prod := by rw [hp]; exact h.1
    have hb : b < (List.replicate n d).prod := by rw [hp]; exact h.2.1
    have hsa := InB_unravel ha
    have hsb := InB_unravel hb
    rw [m3, k3, ← ravel_unravel ha, ← ravel_unravel hb, ← hp, sum_mat r3 s3 hsa hsb, sum_mat s3 r3 hsa hsb,
      block_mul_ne A B (by omega) (by omega) (by omega) hsa hsb, block_mul_ne B A (by omega) (by omega) (by omega) hsa hsb]
    congr 1
    · exact propext ⟨fun h k hk h1 h2 => h k hk h2 h1, fun h k hk h1 h2 => h k hk h2 h1⟩
    · ring

/-- **C28** at the same site they multiply -/
theorem nBody_mul {A B AB : ND K} {d : ℕ} (hA : A.shape = [d, d]) (hB : B.shape = [d, d]) (hAB : A.matmul B = .ok AB) {i n : ℕ}
    (hi : 1 ≤ i) (hin : i ≤ n) :
    ∃ R S RS T, nBody ilog A i n none = .ok R ∧ nBody ilog B i n none = .ok S ∧ R.matmul S = .ok RS ∧ nBody ilog AB i n none = .ok T ∧
      RS ≈ T := by
  obtain ⟨AB', q1, q2, q3⟩ := ND.matmul22 hA hB
  rw [hAB] at q1
  cases q1
  obtain ⟨R, r1, r2, r3⟩ := nBody_spec (ilog := ilog) hA hi hin
  obtain ⟨S, s1, s2, s3⟩ := nBody_spec (ilog := ilog) hB hi hin
  obtain ⟨T, t1, t2, t3⟩ := nBody_spec (ilog := ilog) q2 hi hin
  obtain ⟨RS, m1, m2, m3⟩ := ND.matmul22 r2 s2
  refine ⟨R, S, RS, T, r1, s1, m1, t1, ND.eqv_def.2 ⟨by rw [m2, t2], ?_⟩⟩
  intro idx hidx
  rw [m2] at hidx
  match idx, hidx with
  | [a, b], h =>
    rw [InB_cons, InB_cons] at h
    have hp : (List.replicate n d).prod = d ^ n := by simp
    have ha : a < (List.replicate n d).prod := by rw [hp]; exact h.1
    have hb : b < (List.replicate n d).prod := by rw [hp]; exact h.2.1
    have hsa := InB_unravel ha
    have hsb := InB_unravel hb
    have ht := t3 _ _ hsa hsb
    rw [matElem, ravel_unravel ha, ravel_unravel hb] at ht
    rw [ht, m3]
    conv_lhs => rw [← ravel_unravel ha, ← ravel_unravel hb, ← hp]
    rw [sum_mat r3 s3 hsa hsb]
    generalize unravel (List.replicate n d) a = s at hsa
    generalize unravel (List.replicate n d) b = t at hsb
    have ls : s.length = n := by simpa using hsa.length_eq
    have lt : t.length = n := by simpa using hsb.length_eq
    have hi' : i - 1 < n := by omega
    by_cases hc : ∀ k, k ≠ i - 1 → s[k]? = t[k]?
    · rw [(blockElem_site AB ls lt _ hi').1 hc, q3]
      have : ∀ c ∈ range d, A.val [s.getD (i - 1) 0, c] * B.val [c, t.getD (i - 1) 0] =
          sumIdx (List.replicate n d) fun u => if u = s.set (i - 1) c then blockElem d A (i - 1) 1 s u * blockElem d B (i - 1) 1 u t else 0 := by
        intro c hc'
        have hcd := Finset.mem_range.1 hc'
        have lu : (s.set (i - 1) c).length = n := by simp [ls]
        rw [sumIdx_single _ _ (s.set (i - 1) c) (InB.set hsa (by simp [List.getElem?_replicate, hi']) hcd) fun v _ hne => by rw [if_neg hne],
          if_pos rfl, (blockElem_site A ls lu _ hi').1 fun k hk => by rw [List.getElem?_set_ne (Ne.symm hk)],
          (blockElem_site B lu lt _ hi').1 fun k hk => by rw [List.getElem?_set_ne (Ne.symm hk)]; exact hc k hk]
        simp [List.getElem?_set, ls, hi']
      rw [Finset.sum_congr rfl this, ← sumIdx_finset_sum]
      refine sumIdx_congr fun u hu => ?_
      have lu : u.length = n := by simpa using hu.length_eq
      by_cases h1 : ∀ k, k ≠ i - 1 → s[k]? = u[k]?
      · have hud : u.getD (i - 1) 0 < d := InB.getD_lt hu (by simp [List.getElem?_replicate, hi'])
        have hus : u = s.set (i - 1) (u.getD (i - 1) 0) := by
          apply List.ext_getElem?
          intro k
          by_cases hk : k = i - 1
          · subst hk
            simp [List.getElem?_set, ls, hi', List.getElem?_eq_getElem (show i - 1 < u.length by omega)]
          · rw [List.getElem?_set_ne (Ne.symm hk), h1 k hk]
        rw [Finset.sum_eq_single (u.getD (i - 1) 0)]
        · rw [if_pos hus]
        · intro c _ hne
          rw [if_neg]
          intro e
          apply hne
          rw [e]
          simp [List.getElem?_set, ls, hi']
        · intro hn
          exact absurd (Finset.mem_range.2 hud) hn
      · rw [(blockElem_site A ls lu _ hi').2 h1, zero_mul]
        simp
    · rw [(blockElem_site AB ls lt _ hi').2 hc]
      refine Eq.trans (sumIdx_congr fun u hu => ?_) (sumIdx_zero _)
      have lu : u.length = n := by simpa using hu.length_eq
      by_cases h1 : ∀ k, k ≠ i - 1 → s[k]? = u[k]?
      · rw [(blockElem_site B lu lt _ hi').2 fun h2 => hc fun k hk => (h1 k hk).trans (h2 k hk), mul_zero]
      · rw [(blockElem_site A ls lu _ hi').2 h1, zero_mul]

/-! ### concrete cases -/

example := nBody_spec (K := ℤ) (ilog := Nat.log) (op := ⟨[2, 2], fun idx => if idx = [0, 1] then 1 else 0⟩) (d := 2) rfl (i := 2) (n := 3)
  (by omega) (by omega)
example := nBody_commute (K := ℤ) (ilog := Nat.log) (A := ⟨[2, 2], fun idx => if idx = [0, 1] then 1 else 0⟩)
  (B := ⟨[2, 2], fun idx => if idx = [1, 1] then 1 else 0⟩) (d := 2) rfl rfl (i := 2) (j := 1) (n := 3) (by omega) (by omega) (by omega) (by omega) (by omega)
example := nBody_low (K := ℤ) (ilog := Nat.log) (op := ⟨[2, 2], fun idx => if idx = [0, 1] then 1 else 0⟩) (d := 2) rfl (n := 3) (by omega) 0 (by omega)
example := nBody_d (K := ℤ) (ilog := fun p d => Nat.log d p) (op := ⟨[4, 4], fun idx => if idx = [0, 1] then 1 else 0⟩) (d := 2) (k := 2) rfl
  (Nat.log_pow (by omega) 2) (i := 1) (n := 3) (by omega) (by omega)

end Xmps.Spin
