import Verif.Props.Structure

/-! # Property C22: `mps_pad` and the padding of `expand` -/

namespace Xmps

open Finset Xmps.Spec

variable {K : Type}

namespace FMPS

/-- `A'` is `A` with zeros added at the ends of its bond axes. -/
def Pad [Zero K] (A A' : ND K) (l' r' : ℕ) : Prop :=
  ∃ d l r, A.shape = [d, l, r] ∧ A'.shape = [d, l', r'] ∧ l ≤ l' ∧ r ≤ r' ∧
    ∀ s < d, ∀ i < l', ∀ j < r', A'.val [s, i, j] = if i < l ∧ j < r then A.val [s, i, j] else 0

theorem pad_self [Zero K] {A : ND K} {d l r : ℕ} (h : A.shape = [d, l, r]) : Pad A A l r :=
  ⟨d, l, r, h, h, le_rfl, le_rfl, fun s _ i hi j hj => by rw [if_pos ⟨hi, hj⟩]⟩

theorem padEnd_ok [Zero K] {A : ND K} {d l r : ℕ} (h : A.shape = [d, l, r]) {p q : ℤ} (hp : 0 ≤ p) (hq : 0 ≤ q) :
    ∃ A', padEnd A [0, p, q] = .ok A' ∧ Pad A A' (l + p.toNat) (r + q.toNat) := by
  refine ⟨_, by simp only [padEnd, List.all_cons, hp, hq, ND.rank, h]; rfl, d, l, r, h, by simp, by omega, by omega, ?_⟩
  intro s hs i hi j hj
  by_cases hb : i < l ∧ j < r
  · simp [hb, hs]
  · rw [if_neg hb]
    have : ¬ (s < d ∧ i < l ∧ j < r) := fun hh => hb hh.2
    simp only [InB_cons, InB_nil, and_true, this, if_false]

theorem padPair_ok [Zero K] {a b : ND K} {d l r d' l' r' : ℕ} (ha : a.shape = [d, l, r]) (hb : b.shape = [d', l', r'])
    (hd : 0 < d) (hd' : 0 < d') :
    ∃ a' b', padPair a b = .ok (a', b') ∧ Pad a a' (max l l') (max r r') ∧ Pad b b' (max l l') (max r r') := by
  have h1 := ND.slice0_ok ha hd
  have h2 := ND.slice0_ok hb hd'
  unfold padPair
  simp only [h1, h2, ok_bind, ND.rank, List.length_cons, List.length_nil, beq_self_eq_true, guardPy_true,
    List.zipWith_cons_cons, List.zipWith_nil_right, List.any_cons, List.any_nil, List.map_cons, List.map_nil,
    lt_self_iff_false, decide_false, Bool.false_or, Bool.or_false, if_false, neg_zero]
  by_cases hn : ((l' : ℤ) - l < 0 ∨ (r' : ℤ) - r < 0)
  · have hn' : (decide ((l' : ℤ) - l < 0) || decide ((r' : ℤ) - r < 0)) = true := by simpa using hn
    rw [if_pos hn']
    by_cases hp : (0 < (l' : ℤ) - l ∨ 0 < (r' : ℤ) - r)
    · have hp' : (decide (0 < (l' : ℤ) - l) || decide (0 < (r' : ℤ) - r)) = true := by simpa using hp
      rw [if_pos hp']
      obtain ⟨a', e1, e2⟩ := padEnd_ok (K := K) ha (p := if 0 < (l' : ℤ) - l then (l' : ℤ) - l else 0)
        (q := if 0 < (r' : ℤ) - r then (r' : ℤ) - r else 0) (by split_ifs <;> omega) (by split_ifs <;> omega)
      obtain ⟨b', f1, f2⟩ := padEnd_ok (K := K) hb (p := if (l' : ℤ) - l < 0 then -((l' : ℤ) - l) else 0)
        (q := if (r' : ℤ) - r < 0 then -((r' : ℤ) - r) else 0) (by split_ifs <;> omega) (by split_ifs <;> omega)
      refine ⟨a', b', by rw [e1, f1]; rfl, ?_, ?_⟩
      · have g1 : l + (if 0 < (l' : ℤ) - l then (l' : ℤ) - l else 0).toNat = max l l' := by split_ifs <;> omega
        have g2 : r + (if 0 < (r' : ℤ) - r then (r' : ℤ) - r else 0).toNat = max r r' := by split_ifs <;> omega
        rwa [g1, g2] at e2
      · have g1 : l' + (if (l' : ℤ) - l < 0 then -((l' : ℤ) - l) else 0).toNat = max l l' := by split_ifs <;> omega
        have g2 : r' + (if (r' : ℤ) - r < 0 then -((r' : ℤ) - r) else 0).toNat = max r r' := by split_ifs <;> omega
        rwa [g1, g2] at f2
    · have hp' : ¬ (decide (0 < (l' : ℤ) - l) || decide (0 < (r' : ℤ) - r)) = true := by simpa using hp
      rw [if_neg hp']
      obtain ⟨b', f1, f2⟩ := padEnd_ok (K := K) hb (p := -((l' : ℤ) - l)) (q := -((r' : ℤ) - r)) (by omega) (by omega)
      refine ⟨a, b', by rw [f1]; rfl, ?_, ?_⟩
      · have g1 : max l l' = l := by omega
        have g2 : max r r' = r := by omega
        rw [g1, g2]; exact pad_self ha
      · have g1 : l' + (-((l' : ℤ) - l)).toNat = max l l' := by omega
        have g2 : r' + (-((r' : ℤ) - r)).toNat = max r r' := by omega
        rwa [g1, g2] at f2
  · have hn' : ¬ (decide ((l' : ℤ) - l < 0) || decide ((r' : ℤ) - r < 0)) = true := by simpa using hn
    rw [if_neg hn']
    obtain ⟨a', e1, e2⟩ := padEnd_ok (K := K) ha (p := (l' : ℤ) - l) (q := (r' : ℤ) - r) (by omega) (by omega)
    refine ⟨a', b, by rw [e1]; rfl, ?_, ?_⟩
    · have g1 : l + ((l' : ℤ) - l).toNat = max l l' := by omega
      have g2 : r + ((r' : ℤ) - r).toNat = max r r' := by omega
      rwa [g1, g2] at e2
    · have g1 : max l l' = l' := by omega
      have g2 : max r r' = r' := by omega
      rw [g1, g2]; exact pad_self hb

/-- A chain and a padded version of it, site by site. -/
inductive PadChain [Zero K] : List ℕ → List (ND K) → List (ND K) → ℕ → ℕ → ℕ → Prop
  | nil (r : ℕ) : PadChain [] [] [] r r r
  | cons {d : ℕ} {ds : List ℕ} {A A' : ND K} {As As' : List (ND K)} {l L m M r : ℕ} (hA : A.shape = [d, l, m])
      (hp : Pad A A' L M) (h : PadChain ds As As' m M r) : PadChain (d :: ds) (A :: As) (A' :: As') l L r

theorem PadChain.chain [Zero K] {ds : List ℕ} {As As' : List (ND K)} {l L r : ℕ} (h : PadChain ds As As' l L r) :
    MpsChain ds As l r ∧ MpsChain ds As' L r := by
  induction h with
  | nil r => exact ⟨rfl, rfl⟩
  | cons hA hp _ ih =>
    obtain ⟨d', l', r', e1, e2, -⟩ := hp
    rw [hA] at e1
    simp only [List.cons.injEq, and_true] at e1
    exact ⟨⟨_, hA, ih.1⟩, ⟨_, by rw [e2, e1.1], ih.2⟩⟩

theorem PadChain.amp [CommSemiring K] {ds : List ℕ} {As As' : List (ND K)} {l L r : ℕ} (h : PadChain ds As As' l L r) :
    ∀ {ss : List ℕ}, InB ds ss → ∀ a b, a < L → b < r → Xmps.amp As' ss a b = if a < l then Xmps.amp As ss a b else 0 := by
  induction h with
  | nil r =>
    intro ss hs a b ha hb
    cases ss with
    | nil => simp [ha]
    | cons _ _ => simp at hs
  | @cons d ds A A' As As' l L m M r hA hp h ih =>
    intro ss hs a b ha hb
    cases ss with
    | nil => simp at hs
    | cons s ss =>
      obtain ⟨d', l', m', e1, e2, e3, e4, e5⟩ := hp
      rw [hA] at e1
      simp only [List.cons.injEq, and_true] at e1
      obtain ⟨rfl, rfl, rfl⟩ := e1
      rw [amp_cons, amp_cons, dim2 e2, dim2 hA]
      have hterm : ∀ c ∈ range M, A'.val [s, a, c] * Xmps.amp As' ss c b =
          if c < m then (if a < l then A.val [s, a, c] * Xmps.amp As ss c b else 0) else 0 := by
        intro c hc
        rw [e5 s hs.1 a ha c (by simpa using hc), ih hs.2 c b (by simpa using hc) hb]
        by_cases h1 : a < l <;> by_cases h2 : c < m <;> simp [h1, h2]
      rw [Finset.sum_congr rfl hterm, ← Finset.sum_filter]
      have : (range M).filter (· < m) = range m := by ext x; simp; omega
      rw [this]
      split_ifs with h1
      · rfl
      · simp

theorem padSites_ok [Zero K] : ∀ {ds ds' : List ℕ} {As Bs : List (ND K)} {l l' : ℕ}, MpsChain ds As l 1 → MpsChain ds' Bs l' 1 →
    ds.length = ds'.length → (∀ d ∈ ds, 0 < d) → (∀ d ∈ ds', 0 < d) → (ds = [] → l = l') →
    ∃ As' Bs', padSites As Bs = .ok (As', Bs') ∧ PadChain ds As As' l (max l l') 1 ∧ PadChain ds' Bs Bs' l' (max l l') 1 ∧
      As'.map (fun A => A.shape.tail) = Bs'.map (fun A => A.shape.tail)
  | [], [], [], [], l, l', h, h', _, _, _, he => by
    have := he rfl
    subst this
    have : l = 1 := h
    subst this
    exact ⟨[], [], rfl, .nil 1, .nil 1, rfl⟩
  | d :: ds, d' :: ds', A :: As, B :: Bs, l, l', h, h', hl, hd, hd', _ => by
    obtain ⟨m, hA, h⟩ := h
    obtain ⟨m', hB, h'⟩ := h'
    obtain ⟨A', B', e1, e2, e3⟩ := padPair_ok hA hB (hd d (by simp)) (hd' d' (by simp))
    obtain ⟨As', Bs', f1, f2, f3, f4⟩ := padSites_ok h h' (by simpa using hl) (fun d h => hd d (by simp [h]))
      (fun d h => hd' d (by simp [h])) (by
        intro e
        subst e
        have e' : ds' = [] := List.length_eq_zero_iff.1 (by simpa using hl.symm)
        subst e'
        cases As with
        | nil => cases Bs with
          | nil => exact (show m = 1 from h).trans (show m' = 1 from h').symm
          | cons _ _ => simp at h'
        | cons _ _ => simp at h)
    refine ⟨A' :: As', B' :: Bs', by rw [padSites, e1, ok_bind, f1]; rfl, .cons hA e2 f2, .cons hB e3 f3, ?_⟩
    obtain ⟨_, _, _, _, g1, _⟩ := e2
    obtain ⟨_, _, _, _, g2, _⟩ := e3
    simp [g1, g2, f4]
  | [], _ :: _, _, _, _, _, _, _, h, _, _, _ => by simp at h
  | _ :: _, [], _, _, _, _, _, _, h, _, _, _ => by simp at h
  | [], [], _ :: _, _, _, _, h, _, _, _, _, _ => by simp at h
  | [], [], [], _ :: _, _, _, _, h, _, _, _, _ => by simp at h
  | _ :: _, _ :: _, [], _, _, _, h, _, _, _, _, _ => by simp at h
  | _ :: _, _ :: _, _ :: _, [], _, _, _, h, _, _, _, _ => by simp at h

theorem structure_ok {data : List (ND K)} {ds : List ℕ} {l r : ℕ} (h : MpsChain ds data l r) (hd : ∀ d ∈ ds, 0 < d) :
    structure_ data = .ok (data.map fun A => A.shape.tail) := by
  unfold structure_
  refine mapM_ok ?_
  intro A hA
  have aux : ∀ {ds : List ℕ} {data : List (ND K)} {l : ℕ}, MpsChain ds data l r → (∀ d ∈ ds, 0 < d) → A ∈ data →
      ∃ d l r, 0 < d ∧ A.shape = [d, l, r] := by
    intro ds
    induction ds with
    | nil => intro data l h _ hA; cases data with
      | nil => simp at hA
      | cons _ _ => simp at h
    | cons d ds ih =>
      intro data l h hd hA
      cases data with
      | nil => simp at h
      | cons B data =>
        obtain ⟨m, hB, h⟩ := h
        rcases List.mem_cons.1 hA with rfl | hA
        · exact ⟨d, l, m, hd d (by simp), hB⟩
        · exact ih h (fun d hh => hd d (by simp [hh])) hA
  obtain ⟨d, l, r, h0, hs⟩ := aux h hd hA
  rw [ND.slice0_ok hs h0, ok_bind, hs]
  rfl

/-- **C22**: `mps_pad` returns chains with the same bonds and the states of its arguments. -/
theorem mpsPad_spec [CommSemiring K] {x y : FMPS K} {ds ds' : List ℕ} (hx : x.Holds ds) (hy : y.Holds ds')
    (hl : ds.length = ds'.length) (hd : ∀ d ∈ ds, 0 < d) (hd' : ∀ d ∈ ds', 0 < d) :
    ∃ x' y', mpsPad x y = .ok (x', y') ∧ x'.Holds ds ∧ y'.Holds ds' ∧
      structure_ x'.data = structure_ y'.data ∧
      (∀ s, InB ds s → psi x'.data s = psi x.data s) ∧ (∀ s, InB ds' s → psi y'.data s = psi y.data s) := by
  have sx := structure_ok hx.chain hd
  have sy := structure_ok hy.chain hd'
  by_cases he : (x.data.map fun A => A.shape.tail) = (y.data.map fun A => A.shape.tail)
  · refine ⟨x, y, by simp only [mpsPad, sx, sy, ok_bind, he, if_true], hx, hy, by rw [sx, sy, he], fun _ _ => rfl, fun _ _ => rfl⟩
  · obtain ⟨As', Bs', f1, f2, f3, f4⟩ := padSites_ok hx.chain hy.chain hl hd hd' (fun _ => rfl)
    rw [max_self] at f2 f3
    have c2 := f2.chain.2
    have c3 := f3.chain.2
    refine ⟨{ x with data := As' }, { y with data := Bs' }, by simp only [mpsPad, sx, sy, ok_bind, he, if_false, f1],
      ⟨c2, hx.ne, hx.len, hx.d⟩, ⟨c3, hy.ne, hy.len, hy.d⟩, ?_, fun s hs => ?_, fun s hs => ?_⟩
    · rw [structure_ok c2 hd, structure_ok c3 hd', f4]
    · have n1 : As' ≠ [] := by
        rintro rfl
        exact hx.ne (List.length_eq_zero_iff.1 c2.length_eq.symm)
      rw [psi_eq_amp c2 n1 hs.length_eq, psi_eq_amp hx.chain hx.data_ne hs.length_eq,
        f2.amp hs 0 0 (by omega) (by omega), if_pos (by omega)]
    · have n1 : Bs' ≠ [] := by
        rintro rfl
        exact hy.ne (List.length_eq_zero_iff.1 c3.length_eq.symm)
      rw [psi_eq_amp c3 n1 hs.length_eq, psi_eq_amp hy.chain hy.data_ne hs.length_eq,
        f3.amp hs 0 0 (by omega) (by omega), if_pos (by omega)]

/-- The padding loop of `expand`, for target bonds `g`. -/
theorem expandLoop_ok [Zero K] (g : ℕ → ℕ) (d : ℕ) : ∀ (n k : ℕ) {As : List (ND K)} {l : ℕ},
    MpsChain (List.replicate n d) As l 1 → (∀ i (hi : i < As.length), (As[i].shape.getD 1 0) ≤ g (k + i) ∧ (As[i].shape.getD 2 0) ≤ g (k + i + 1)) →
    (n = 0 → g k = 1) → g (k + n) = 1 → 
    ∃ As', (As.zip ((As.map fun A => A.shape.tail).zip ((List.range' k n).map fun i => (g i, g (i + 1))))).mapM
        (fun (p : ND K × List ℕ × (ℕ × ℕ)) => padEnd p.1 (0 :: List.zipWith (fun (n : ℕ) (m : ℕ) => (n : ℤ) - m) [p.2.2.1, p.2.2.2] p.2.1)) = .ok As' ∧
      PadChain (List.replicate n d) As As' l (g k) 1
  | 0, k, [], l, h, _, h0, _ => by
    have : l = 1 := h
    subst this
    rw [h0 rfl]
    exact ⟨[], rfl, .nil 1⟩
  | n + 1, k, A :: As, l, h, hb, _, hg => by
    obtain ⟨m, hA, h⟩ := h
    have hb0 := hb 0 (by simp)
    simp only [List.getElem_cons_zero, hA] at hb0
    simp only [List.getD_cons_succ, List.getD_cons_zero, Nat.add_zero] at hb0
    obtain ⟨A', e1, e2⟩ := padEnd_ok (K := K) hA (p := (g k : ℤ) - l) (q := (g (k + 1) : ℤ) - m) (by omega) (by omega)
    have g1 : l + ((g k : ℤ) - l).toNat = g k := by omega
    have g2 : m + ((g (k + 1) : ℤ) - m).toNat = g (k + 1) := by omega
    rw [g1, g2] at e2
    obtain ⟨As', f1, f2⟩ := expandLoop_ok g d n (k + 1) h (by
      intro i hi
      have := hb (i + 1) (by simpa using hi)
      simp only [List.getElem_cons_succ] at this
      have e : k + (i + 1) = k + 1 + i := by omega
      rwa [e] at this) (by rintro rfl; simpa using hg) (by rw [← hg]; congr 1; omega)
    refine ⟨A' :: As', ?_, .cons hA e2 f2⟩
    simp only [List.map_cons, List.range'_succ, List.zip_cons_cons, List.mapM_cons, hA, List.tail_cons,
      List.zipWith_cons_cons, List.zipWith_nil_right, e1, ok_bind, f1]
    rfl
  | 0, _, _ :: _, _, h, _, _, _ => by simp at h
  | _ + 1, _, [], _, h, _, _, _ => by simp [List.replicate_succ] at h

/-- **C22**: the padding of `expand(D)` keeps the state when no bond shrinks. -/
theorem expandPad_spec [CommSemiring K] {x : FMPS K} {L d D : ℕ} (hx : x.Holds (List.replicate L d)) (hL : 2 ≤ L) (hd : 0 < d)
    (hD : 1 ≤ D)
    (hb : ∀ i (hi : i < x.data.length), (x.data[i].shape.getD 1 0) ≤ bondAt L d D i ∧ (x.data[i].shape.getD 2 0) ≤ bondAt L d D (i + 1)) :
    ∃ y, expandPad x D = .ok y ∧ y.Holds (List.replicate L d) ∧ y.D = D ∧
      y.data.map ND.shape = ((List.range L).map fun i => [d, bondAt L d D i, bondAt L d D (i + 1)]) ∧
      ∀ s, InB (List.replicate L d) s → psi y.data s = psi x.data s := by
  have hxL : x.L = L := by rw [hx.len]; simp
  have hxd : x.d = d := by
    rw [hx.d]; obtain ⟨k, rfl⟩ : ∃ k, L = k + 1 := ⟨L - 1, by omega⟩; rfl
  obtain ⟨As', f1, f2⟩ := expandLoop_ok (bondAt L d D) d L 0 hx.chain (by simpa using hb) (by omega)
    (by simpa using (bondAt_ends hD).2)
  rw [(bondAt_ends hD).1] at f2
  have c2 := f2.chain.2
  have hlen : As'.length = x.data.length := by rw [c2.length_eq, hx.chain.length_eq]
  refine ⟨{ x with data := As', D := D }, ?_, ⟨c2, hx.ne, hx.len, hx.d⟩, rfl, ?_, fun s hs => ?_⟩
  · simp only [expandPad, structure_ok hx.chain (by intro e he; rw [List.eq_of_mem_replicate he]; exact hd), ok_bind, hxL, hxd,
      createStructure_spec hL]
    rw [List.range_eq_range']
    rw [f1, ok_bind, hlen, List.drop_length, List.append_nil]
  · have aux : ∀ (n k : ℕ) {As As' : List (ND K)} {l : ℕ},
        (As.zip ((As.map fun A => A.shape.tail).zip ((List.range' k n).map fun i => (bondAt L d D i, bondAt L d D (i + 1))))).mapM
          (fun (p : ND K × List ℕ × (ℕ × ℕ)) => padEnd p.1 (0 :: List.zipWith (fun (n : ℕ) (m : ℕ) => (n : ℤ) - m) [p.2.2.1, p.2.2.2] p.2.1)) = .ok As' →
        MpsChain (List.replicate n d) As l 1 →
        As'.map ND.shape = (List.range' k n).map fun i => [d, bondAt L d D i, bondAt L d D (i + 1)] := by
      intro n
      induction n with
      | zero =>
        intro k As As' l h hc
        cases As with
        | nil => simp at h; subst h; rfl
        | cons _ _ => simp at hc
      | succ n ih =>
        intro k As As' l h hc
        cases As with
        | nil => simp [List.replicate_succ] at hc
        | cons A As =>
          obtain ⟨m, hA, hc⟩ := hc
          simp only [List.map_cons, List.range'_succ, List.zip_cons_cons, List.mapM_cons, hA, List.tail_cons,
            List.zipWith_cons_cons, List.zipWith_nil_right] at h
          by_cases hp : (0 ≤ (bondAt L d D k : ℤ) - l) ∧ (0 ≤ (bondAt L d D (k + 1) : ℤ) - m)
          · obtain ⟨A', e1, e2⟩ := padEnd_ok (K := K) hA hp.1 hp.2
            rw [e1, ok_bind] at h
            cases hr : (As.zip ((As.map fun A => A.shape.tail).zip ((List.range' (k + 1) n).map fun i => (bondAt L d D i, bondAt L d D (i + 1))))).mapM
              (fun (p : ND K × List ℕ × (ℕ × ℕ)) => padEnd p.1 (0 :: List.zipWith (fun (n : ℕ) (m : ℕ) => (n : ℤ) - m) [p.2.2.1, p.2.2.2] p.2.1)) with
            | error e => rw [hr] at h; simp at h
            | ok rest =>
              rw [hr, ok_bind] at h
              simp only [py_pure, Except.ok.injEq] at h
              subst h
              obtain ⟨d', l', r', s1, s2, -⟩ := e2
              rw [hA] at s1
              simp only [List.cons.injEq, and_true] at s1
              have g1 : l + ((bondAt L d D k : ℤ) - l).toNat = bondAt L d D k := by omega
              have g2 : m + ((bondAt L d D (k + 1) : ℤ) - m).toNat = bondAt L d D (k + 1) := by omega
              rw [List.map_cons, ih (k + 1) hr hc, s2, g1, g2, ← s1.1, List.range'_succ, List.map_cons]
          · have : padEnd A [0, (bondAt L d D k : ℤ) - l, (bondAt L d D (k + 1) : ℤ) - m] = .error .valueError := by
              have hf : ([0, (bondAt L d D k : ℤ) - l, (bondAt L d D (k + 1) : ℤ) - m].all fun x => decide (0 ≤ x)) = false := by
                rw [Bool.eq_false_iff]
                intro hh
                simp only [List.all_cons, List.all_nil, Bool.and_true, Bool.and_eq_true, decide_eq_true_eq] at hh
                exact hp hh.2
              rw [padEnd, hf]; rfl
            rw [this] at h
            simp at h
    have := aux L 0 f1 hx.chain
    rwa [← List.range_eq_range'] at this
  · have n1 : As' ≠ [] := by
      rintro rfl
      exact hx.ne (List.length_eq_zero_iff.1 c2.length_eq.symm)
    rw [psi_eq_amp c2 n1 hs.length_eq, psi_eq_amp hx.chain hx.data_ne hs.length_eq,
      f2.amp hs 0 0 (by omega) (by omega), if_pos (by omega)]

/-! Concrete cases: a chain with inner bond 2 and one with inner bond 3. -/
example := mpsPad_spec (exTwo_holds 5) exWide_holds (by decide) (by decide) (by decide)

/-- **C22** (violated at the edge): the bond dimension attribute `D` is not updated by `mps_pad`. -/
theorem mpsPad_stale_D : ∃ x' y', mpsPad (exTwo 5) exWide = .ok (x', y') ∧ x'.D = 2 ∧
    x'.data.map ND.shape = [[2, 1, 3], [2, 3, 1]] := by
  refine ⟨_, _, rfl, rfl, ?_⟩
  rfl

end FMPS

end Xmps
