import Verif.Lemmas.TwoSite
import Verif.Spec.Gate
import Verif.Props.LapackExists
import Verif.Props.ExpectCanon

/-!
# C12: two-site gates
-/

namespace Xmps

open Finset Spec Xmps.Ncon

/-- exchange two neighbours -/
def swapAt (k : ℕ) (s : List ℕ) : List ℕ := (s.set k (s.getD (k + 1) 0)).set (k + 1) (s.getD k 0)

theorem InB.getD_lt : ∀ {ds s : List ℕ} {k d : ℕ}, InB ds s → ds[k]? = some d → s.getD k 0 < d
  | d :: ds, t :: s, 0, d', h, hk => by
    simp only [List.getElem?_cons_zero, Option.some.injEq] at hk
    subst hk
    exact h.1
  | d :: ds, t :: s, k + 1, d', h, hk => by
    simp only [List.getElem?_cons_succ] at hk
    simpa using InB.getD_lt (k := k) h.2 hk
  | [], _, _, _, _, hk => by simp at hk
  | _ :: _, [], _, _, h, _ => by simp [InB] at h

theorem InB.set : ∀ {ds s : List ℕ} {k d p : ℕ}, InB ds s → ds[k]? = some d → p < d → InB ds (s.set k p)
  | d :: ds, t :: s, 0, d', p, h, hk, hp => by
    simp only [List.getElem?_cons_zero, Option.some.injEq] at hk
    subst hk
    exact ⟨hp, h.2⟩
  | d :: ds, t :: s, k + 1, d', p, h, hk, hp => by
    simp only [List.getElem?_cons_succ] at hk
    exact ⟨h.1, InB.set (k := k) h.2 hk hp⟩
  | [], _, _, _, _, _, hk, _ => by simp at hk
  | _ :: _, [], _, _, _, h, _, _ => by simp [InB] at h

theorem InB.swapAt {ds s : List ℕ} {k d : ℕ} (h : InB ds s) (h1 : ds[k]? = some d) (h2 : ds[k + 1]? = some d) :
    InB ds (swapAt k s) := (h.set h1 (h.getD_lt h2)).set h2 (h.getD_lt h1)

theorem gateAct_congr {d : ℕ} {op : ND ℂ} {i j : ℕ} {f g : List ℕ → ℂ} {ds s : List ℕ} (h1 : ds[i]? = some d)
    (h2 : ds[j]? = some d) (hs : InB ds s) (h : ∀ t, InB ds t → f t = g t) : gateAct d op i j f s = gateAct d op i j g s :=
  Finset.sum_congr rfl fun p hp => Finset.sum_congr rfl fun q hq => by
    rw [h _ ((hs.set h1 (by simpa using hp)).set h2 (by simpa using hq))]

theorem gateAct_swap {k : ℕ} {f : List ℕ → ℂ} {ds s : List ℕ} (h1 : ds[k]? = some 2) (h2 : ds[k + 1]? = some 2) (hs : InB ds s) :
    gateAct 2 SWAP k (k + 1) f s = f (swapAt k s) := by
  have a1 := hs.getD_lt h1
  have a2 := hs.getD_lt h2
  unfold gateAct swapAt
  generalize s.getD k 0 = p at *
  generalize s.getD (k + 1) 0 = q at *
  have : (p = 0 ∨ p = 1) ∧ (q = 0 ∨ q = 1) := by omega
  rcases this with ⟨rfl | rfl, rfl | rfl⟩ <;> simp [Finset.sum_range_succ, SWAP]

/-- moving a two-site operator one site further -/
theorem gateAct_move {op : ND ℂ} {d i j : ℕ} (hij : i < j) {f : List ℕ → ℂ} {s : List ℕ} (hj : j + 1 < s.length) :
    gateAct d op i j (fun t => f (swapAt j t)) (swapAt j s) = gateAct d op i (j + 1) f s := by
  have e1 : (swapAt j s).getD i 0 = s.getD i 0 := by
    simp [swapAt, List.getD_eq_getElem?_getD, List.getElem?_set, show j + 1 ≠ i by omega, show j ≠ i by omega]
  have e2 : (swapAt j s).getD j 0 = s.getD (j + 1) 0 := by
    simp [swapAt, List.getD_eq_getElem?_getD, List.getElem?_set, show j < s.length by omega, hj]
  unfold gateAct
  rw [e1, e2]
  refine Finset.sum_congr rfl fun p _ => Finset.sum_congr rfl fun q _ => ?_
  refine congrArg _ (congrArg f ?_)
  refine List.ext_getElem? fun k => ?_
  have l1 : j < s.length := by omega
  have l2 : i < s.length := by omega
  have a1 : (((swapAt j s).set i p).set j q).getD (j + 1) 0 = s.getD j 0 := by
    simp [swapAt, List.getD_eq_getElem?_getD, List.getElem?_set, l1, hj, show i ≠ j + 1 by omega]
  have a2 : (((swapAt j s).set i p).set j q).getD j 0 = q := by
    simp [swapAt, List.getD_eq_getElem?_getD, List.getElem?_set, l1]
  rw [swapAt, a1, a2]
  simp only [swapAt, List.getElem?_set, List.length_set, List.getD_eq_getElem?_getD]
  by_cases h1 : j + 1 = k
  · subst h1; simp [hj]
  · by_cases h2 : j = k
    · subst h2; simp [l1, show ¬ i = j by omega]
    · by_cases h3 : i = k
      · subst h3; simp [l2, h1, h2]
      · simp [h1, h2, h3]

theorem chain_at2 {ds : List ℕ} {As : List (ND ℂ)} {l r k d e : ℕ} (h : MpsChain ds As l r) (h1 : ds[k]? = some d)
    (h2 : ds[k + 1]? = some e) : ∃ ds1 ds2 As1 A B As2 m n o, ds = ds1 ++ d :: e :: ds2 ∧ As = As1 ++ A :: B :: As2 ∧
      ds1.length = k ∧ As1.length = k ∧ MpsChain ds1 As1 l m ∧ A.shape = [d, m, n] ∧ B.shape = [e, n, o] ∧ MpsChain ds2 As2 o r := by
  have hk : k < ds.length := by
    by_contra hc
    rw [List.getElem?_eq_none (by omega)] at h1
    simp at h1
  obtain ⟨ds1, d', ds2, As1, A, As2, m, n, e1, e2, e3, e4, c1, c2, c3⟩ := chain_at h hk
  subst e1 e2 e3
  simp at h1
  subst h1
  match ds2, As2, c3 with
  | f :: ds2, B :: As2, c3 =>
    obtain ⟨o, c4, c5⟩ := c3
    have : f = e := by simpa [List.getElem?_append] using h2
    subst this
    exact ⟨ds1, ds2, As1, A, B, As2, m, n, o, rfl, rfl, rfl, e4, c1, c2, c4, c5⟩
  | [], _, _ => simp [List.getElem?_append] at h2
  | _ :: _, [], c3 => simp at c3

namespace FMPS

/-- What one gate does to the receiver. -/
structure GateResult (which : Side) (x y : FMPS ℂ) (ds : List ℕ) (d : ℕ) (op : ND ℂ) (i j : ℕ) : Prop where
  /-- still a chain with the same local dimensions and no empty bond -/
  chain : MpsChain ds y.data 1 1
  pos : PosDims y.data
  /-- the state is the operator applied to the old state -/
  state : ∀ s, InB ds s → psi y.data s = gateAct d op i j (psi x.data) s
  /-- the other tensors and the other fields stay -/
  rest : y = { x with data := y.data }
  outside : ∀ k, k < i ∨ j < k → y.data[k]? = x.data[k]?
  /-- `which` says where an isometry is left -/
  left : which = .l → ∀ k, i ≤ k → k < j → ∀ A, y.data[k]? = some A → LeftIso A
  right : which = .r → ∀ A, y.data[j]? = some A → RightIso A

theorem pairStep_ok {qr rq : ND ℂ → Py (ND ℂ × ND ℂ)} (hqr : QRLaw qr) (hrq : RQLaw rq) {svd : Svd} (O : SetOrder)
    {x : FMPS ℂ} {ds : List ℕ} {d k : ℕ} (hx : MpsChain ds x.data 1 1) (hp : PosDims x.data) (h1 : ds[k]? = some d)
    (h2 : ds[k + 1]? = some d) {U : ND ℂ} (hU : U.shape = [d * d, d * d]) {which : Side} (hw : which ≠ .other) :
    ∃ y, pairStep qr rq svd O which x (U, k, none) = .ok y ∧ GateResult which x y ds d U k (k + 1) := by
  obtain ⟨ds1, ds2, As1, A, B, As2, l, m, r, e1, e2, e3, e4, c1, hA, hB, c2⟩ := chain_at2 hx h1 h2
  have hpA := (posDims3 hA).1 (hp A (by simp [e2]))
  have hpB := (posDims3 hB).1 (hp B (by simp [e2]))
  obtain ⟨A', B', n, e5, hn, -, -, hA', hB', i1, i2, hv⟩ := applyUnitary_ok hqr hrq (svd := svd) O hpA.1 hpA.2.1 hpB.2.2 hA hB hU hw
  have e6 : (x.data.set k A').set (k + 1) B' = As1 ++ A' :: B' :: As2 := by
    rw [e2, ← e4]; simp
  refine ⟨{ x with data := As1 ++ A' :: B' :: As2 }, ?_, ?_, ?_, ?_, rfl, ?_, ?_, ?_⟩
  · unfold pairStep
    simp only
    rw [show pyGet x.data k = .ok A from by simp [pyGet, e2, ← e4], ok_bind,
      show pyGet x.data (k + 1) = .ok B from by simp [pyGet, e2, ← e4], ok_bind, e5, ok_bind, e6]
  · rw [e1]
    exact (mpsChain_append c1.length_eq).2 ⟨l, c1, n, hA', r, hB', c2⟩
  · intro C hC
    simp only [List.mem_append, List.mem_cons] at hC
    rcases hC with hC | rfl | rfl | hC
    · exact hp C (by simp [e2, hC])
    · exact (posDims3 hA').2 ⟨hpA.1, hpA.2.1, hn⟩
    · exact (posDims3 hB').2 ⟨hpA.1, hn, hpB.2.2⟩
    · exact hp C (by simp [e2, hC])
  · intro s hs
    rw [e1] at hs
    obtain ⟨s1, t, s2, rfl, b1, ht, b2⟩ := hs.split
    match s2, b2 with
    | u :: s2, ⟨hu, b2⟩ =>
      have hl1 : s1.length = k := by rw [b1.length_eq, e3]
      simp only [e2]
      rw [psi_pair c1 hA hB c2 hA' hB' (W := fun s t s' t' => U.val [s * d + t, s' * d + t']) hv b1.length_eq ht hu b2.length_eq]
      subst hl1
      simp [gateAct, List.getD_eq_getElem?_getD]
  · intro q hq
    simp only [e2]
    rcases hq with hq | hq
    · rw [List.getElem?_append_left (by omega), List.getElem?_append_left (by omega)]
    · rw [List.getElem?_append_right (by omega), List.getElem?_append_right (by omega), e4]
      obtain ⟨z, hz⟩ : ∃ z, q - k = z + 2 := ⟨q - k - 2, by omega⟩
      rw [hz]; simp
  · intro hw' q hq1 hq2 C hC
    obtain rfl : q = k := by omega
    simp [← e4] at hC
    exact hC ▸ i1 hw'
  · intro hw' C hC
    simp [← e4] at hC
    exact hC ▸ i2 hw'

theorem gateList_succ (op : ND ℂ) (i n : ℕ) (D D' : Option ℕ) :
    gateList op i (i + 1 + (n + 1)) D D' = (SWAP, i + 1 + n, D') :: gateList op i (i + 1 + n) D D' ++ [(SWAP, i + 1 + n, D')] := by
  have h1 : i + 1 + (n + 1) - 1 - i = n + 1 := by omega
  have h2 : i + 1 + n - 1 - i = n := by omega
  rw [gateList, gateList, h1, h2]
  simp [List.range'_concat]

/-- the whole list of gates -/
theorem gateList_ok {qr rq : ND ℂ → Py (ND ℂ × ND ℂ)} (hqr : QRLaw qr) (hrq : RQLaw rq) {svd : Svd} (O : SetOrder)
    {ds : List ℕ} {i : ℕ} {op : ND ℂ} (hop : op.shape = [4, 4]) {which : Side} (hw : which ≠ .other) :
    ∀ (n : ℕ) (x : FMPS ℂ), MpsChain ds x.data 1 1 → PosDims x.data → (∀ k, i ≤ k → k ≤ i + 1 + n → ds[k]? = some 2) →
      ∃ y, (gateList op i (i + 1 + n) none none).foldlM (pairStep qr rq svd O which) x = .ok y ∧
        GateResult which x y ds 2 op i (i + 1 + n)
  | 0, x, hx, hp, hd => by
    obtain ⟨y, h, g⟩ := pairStep_ok hqr hrq (svd := svd) O hx hp (hd i le_rfl (by omega)) (hd (i + 1) (by omega) (by omega))
      (U := op) hop hw
    refine ⟨y, ?_, g⟩
    simp only [gateList, show i + 1 + 0 - 1 - i = 0 by omega, List.range'_zero, List.reverse_nil, List.map_nil, List.nil_append, List.append_nil]
    rw [List.foldlM_cons, h]
    rfl
  | n + 1, x, hx, hp, hd => by
    have d1 : ds[i + 1 + n]? = some 2 := hd _ (by omega) (by omega)
    have d2 : ds[i + 1 + n + 1]? = some 2 := hd _ (by omega) (by omega)
    obtain ⟨y, h, g⟩ := pairStep_ok hqr hrq (svd := svd) O hx hp d1 d2 (U := SWAP) rfl hw
    obtain ⟨z, h', g'⟩ := gateList_ok hqr hrq (svd := svd) O hop hw n y g.chain g.pos fun k a b => hd k a (by omega)
    obtain ⟨w, h'', g''⟩ := pairStep_ok hqr hrq (svd := svd) O g'.chain g'.pos d1 d2 (U := SWAP) rfl hw
    refine ⟨w, ?_, g''.chain, g''.pos, ?_, ?_, ?_, ?_, ?_⟩
    · rw [gateList_succ, List.cons_append, List.foldlM_cons, h, ok_bind, List.foldlM_append, h', ok_bind, List.foldlM_cons, h'']
      rfl
    · intro s hs
      rw [g''.state s hs, gateAct_swap d1 d2 hs, g'.state _ (hs.swapAt d1 d2),
        gateAct_congr (g := fun t => psi x.data (swapAt (i + 1 + n) t)) (hd i le_rfl (by omega)) d1 (hs.swapAt d1 d2)
          (fun t ht => by rw [g.state t ht, gateAct_swap d1 d2 ht])]
      refine gateAct_move (by omega) ?_
      rw [hs.length_eq]
      by_contra hc
      rw [List.getElem?_eq_none (by omega)] at d2
      simp at d2
    · rw [g''.rest, g'.rest, g.rest]
    · intro k hk
      rw [g''.outside k (by omega), g'.outside k (by omega), g.outside k (by omega)]
    · intro hw' k a b A hA
      by_cases hk : k = i + 1 + n
      · exact g''.left hw' k (by omega) (by omega) A hA
      · rw [g''.outside k (by omega)] at hA
        exact g'.left hw' k a (by omega) A hA
    · exact fun hw' A hA => g''.right hw' A hA

/-- **C12** `apply_two_site((op, (i, j)))` without truncation, on any two different sites of a chain
whose sites between them are qubits: the operator acts with its first leg on the smaller and its second
leg on the larger site number. -/
theorem applyTwoSite_spec {qr rq : ND ℂ → Py (ND ℂ × ND ℂ)} (hqr : QRLaw qr) (hrq : RQLaw rq) (svd : Svd) (O : SetOrder)
    {x : FMPS ℂ} {ds : List ℕ} (hx : MpsChain ds x.data 1 1) (hp : PosDims x.data) {i j : ℕ} (hij : i ≠ j)
    (hd : ∀ k, min i j ≤ k → k ≤ max i j → ds[k]? = some 2) {op : ND ℂ} (hop : op.shape = [4, 4]) {which : Side} (hw : which ≠ .other)
    (b : Bool) :
    ∃ y, x.applyTwoSite qr rq svd O op [i, j] which none b = .ok y ∧ GateResult which x y ds 2 op (min i j) (max i j) := by
  obtain ⟨n, hn⟩ : ∃ n, max i j = min i j + 1 + n := ⟨max i j - min i j - 1, by omega⟩
  rw [hn] at hd
  obtain ⟨y, h, g⟩ := gateList_ok hqr hrq (svd := svd) O hop hw n x hx hp hd
  refine ⟨y, ?_, hn ▸ g⟩
  have e0 : op.dim 0 = 4 := by simp [ND.dim, hop]
  have e1 : op.dim 1 = 4 := by simp [ND.dim, hop]
  unfold applyTwoSite
  simp only [e0, e1, ite_self, hn]
  exact h

/-- **C12** for sites in increasing order. -/
theorem applyTwoSite_state {qr rq : ND ℂ → Py (ND ℂ × ND ℂ)} (hqr : QRLaw qr) (hrq : RQLaw rq) (svd : Svd) (O : SetOrder)
    {x : FMPS ℂ} {L : ℕ} (hx : MpsChain (List.replicate L 2) x.data 1 1) (hp : PosDims x.data) {i j : ℕ} (hij : i < j) (hj : j < L)
    {op : ND ℂ} (hop : op.shape = [4, 4]) {which : Side} (hw : which ≠ .other) :
    ∃ y, x.applyTwoSite qr rq svd O op [i, j] which none = .ok y ∧ MpsChain (List.replicate L 2) y.data 1 1 ∧
      ∀ s, InB (List.replicate L 2) s → psi y.data s = gateAct 2 op i j (psi x.data) s := by
  obtain ⟨y, h, g⟩ := applyTwoSite_spec hqr hrq svd O hx hp (i := i) (j := j) (by omega)
    (fun k _ hk => by rw [List.getElem?_replicate, if_pos (by omega)]) hop hw false
  rw [min_eq_left hij.le, max_eq_right hij.le] at g
  exact ⟨y, h, g.chain, g.state⟩

/-- **C12** neighbouring sites of any local dimension but one whose square is 2 (there is none). -/
theorem applyTwoSite_neighbours {qr rq : ND ℂ → Py (ND ℂ × ND ℂ)} (hqr : QRLaw qr) (hrq : RQLaw rq) (svd : Svd) (O : SetOrder)
    {x : FMPS ℂ} {ds : List ℕ} {d i : ℕ} (hx : MpsChain ds x.data 1 1) (hp : PosDims x.data) (h1 : ds[i]? = some d)
    (h2 : ds[i + 1]? = some d) {op : ND ℂ} (hop : op.shape = [d * d, d * d]) {which : Side} (hw : which ≠ .other) (b : Bool) :
    ∃ y, x.applyTwoSite qr rq svd O op [i, i + 1] which none b = .ok y ∧ GateResult which x y ds d op i (i + 1) := by
  obtain ⟨y, h, g⟩ := pairStep_ok hqr hrq (svd := svd) O hx hp h1 h2 hop hw
  refine ⟨y, ?_, g⟩
  have e0 : op.dim 0 = d * d := by simp [ND.dim, hop]
  have e1 : op.dim 1 = d * d := by simp [ND.dim, hop]
  have h4 : d * d ≠ 2 := by
    intro h
    have : d ≤ 1 ∨ 2 ≤ d := by omega
    rcases this with h' | h'
    · have := Nat.mul_le_mul h' h'; omega
    · have := Nat.mul_le_mul h' h'; omega
  unfold applyTwoSite
  simp only [e0, e1, ite_self, h4, if_false, beq_self_eq_true, guardPy_true, ok_bind]
  rw [min_eq_left (by omega), max_eq_right (by omega)]
  simp only [gateList, show i + 1 - 1 - i = 0 by omega, List.range'_zero, List.reverse_nil, List.map_nil, List.nil_append,
    List.append_nil]
  rw [List.foldlM_cons, h]
  rfl

end FMPS

theorem gateAct_eye {d i j : ℕ} (hij : i ≠ j) {f : List ℕ → ℂ} {ds s : List ℕ} (h1 : ds[i]? = some d) (h2 : ds[j]? = some d)
    (hs : InB ds s) : gateAct d (eyeND (d * d)) i j f s = f s := by
  have a1 := hs.getD_lt h1
  have a2 := hs.getD_lt h2
  unfold gateAct
  rw [Finset.sum_eq_single (s.getD i 0), Finset.sum_eq_single (s.getD j 0)]
  · have : (s.set i (s.getD i 0)).set j (s.getD j 0) = s := by
      refine List.ext_getElem? fun k => ?_
      simp only [List.getElem?_set, List.length_set, List.getD_eq_getElem?_getD]
      by_cases e1 : j = k
      · subst e1
        by_cases h : j < s.length
        · simp [h]
        · simp [h]
      · by_cases e2 : i = k
        · subst e2
          by_cases h : i < s.length
          · simp [e1, h]
          · simp [e1, h]
        · simp [e1, e2]
    rw [this]
    simp [eyeND]
  · intro q _ hq
    simp only [eyeND]
    rw [if_neg (by omega), zero_mul]
  · exact fun h => absurd (by simpa using a2) h
  · intro p hp hne
    refine Finset.sum_eq_zero fun q hq => ?_
    have hq : q < d := by simpa using hq
    simp only [eyeND]
    rw [if_neg, zero_mul]
    intro e
    apply hne
    have := congrArg (· / d) e
    simp only [mul_comm _ d, Nat.mul_add_div (show 0 < d by omega), Nat.div_eq_of_lt a2, Nat.div_eq_of_lt hq, add_zero] at this
    exact this.symm
  · exact fun h => absurd (by simpa using a1) h

section examples
variable {qr rq : ND ℂ → Py (ND ℂ × ND ℂ)} (hqr : QRLaw qr) (hrq : RQLaw rq) (svd : Svd) (O : SetOrder)

/-- controlled NOT, control on the first leg -/
def CNOT : ND ℂ := ⟨[4, 4], fun
  | [0, 0] | [1, 1] | [2, 3] | [3, 2] => 1
  | _ => 0⟩

/-- three qubits in a product state, `(1,0) ⊗ (0,1) ⊗ (1,2)` -/
def exThree : FMPS ℂ := ⟨[FMPS.column [1, 0], FMPS.column [0, 1], FMPS.column [1, 2]], 3, 2, 1, false, false, none, none⟩

theorem exThree_chain : MpsChain (List.replicate 3 2) exThree.data 1 1 := ⟨1, rfl, 1, rfl, 1, rfl, rfl⟩

theorem exThree_pos : PosDims exThree.data := by
  intro A hA n hn
  simp only [exThree, List.mem_cons, List.not_mem_nil, or_false] at hA
  rcases hA with rfl | rfl | rfl <;> simp [FMPS.column] at hn <;> omega

example := FMPS.applyTwoSite_state hqr hrq svd O exThree_chain exThree_pos (i := 0) (j := 2) (by simp) (by simp) (op := CNOT) rfl
  (which := .r) (by simp)
example := FMPS.applyTwoSite_spec hqr hrq svd O exThree_chain exThree_pos (i := 2) (j := 0) (by simp)
  (fun k _ hk => by rw [List.getElem?_replicate, if_pos (by simp at hk; omega)]) (op := CNOT) rfl (which := .l) (by simp) true
example := FMPS.applyTwoSite_neighbours hqr hrq svd O exThree_chain exThree_pos (i := 1) rfl rfl (op := CNOT) rfl
  (which := .l) (by simp) true

/-- the contracts can be met -/
example : ∃ qr rq : ND ℂ → Py (ND ℂ × ND ℂ), QRLaw qr ∧ RQLaw rq := by
  obtain ⟨qr, h⟩ := qrLaw_exists
  obtain ⟨rq, h'⟩ := rqLaw_exists
  exact ⟨qr, rq, h, h'⟩

end examples

/-! ### where C12 fails -/

/-- the state `|10⟩` -/
def exTen : FMPS ℂ := ⟨[FMPS.column [0, 1], FMPS.column [1, 0]], 2, 2, 1, false, false, none, none⟩

theorem exTen_psi (s t : ℕ) : psi exTen.data [s, t] = ([0, 1] : List ℂ).getD s 0 * ([1, 0] : List ℂ).getD t 0 := by
  simp [psi, exTen, pathProd, FMPS.column, ND.dim]

/-- **The order of the sites is ignored**: `apply_two_site((CNOT, (1, 0)))` on `|10⟩` should leave the
state (the control is site 1); it flips site 1. -/
theorem FMPS.applyTwoSite_order {qr rq : ND ℂ → Py (ND ℂ × ND ℂ)} (hqr : QRLaw qr) (hrq : RQLaw rq) (svd : Svd) (O : SetOrder) :
    ∃ y, exTen.applyTwoSite qr rq svd O CNOT [1, 0] = .ok y ∧ psi y.data [1, 1] = 1 ∧
      gateAct 2 CNOT 1 0 (psi exTen.data) [1, 1] = 0 := by
  have hp : PosDims exTen.data := by
    intro A hA n hn
    simp only [exTen, List.mem_cons, List.not_mem_nil, or_false] at hA
    rcases hA with rfl | rfl <;> simp [FMPS.column] at hn <;> omega
  obtain ⟨y, h, g⟩ := FMPS.applyTwoSite_spec hqr hrq svd O (x := exTen) (ds := List.replicate 2 2) ⟨1, rfl, 1, rfl, rfl⟩ hp (i := 1) (j := 0)
    (by simp) (fun k _ hk => by rw [List.getElem?_replicate, if_pos (by simp at hk; omega)]) (op := CNOT) rfl (which := .l) (by simp) false
  refine ⟨y, h, ?_, ?_⟩
  · rw [g.state [1, 1] (by simp [InB, List.replicate])]
    simp [gateAct, Finset.sum_range_succ, CNOT, exTen_psi]
  · simp [gateAct, Finset.sum_range_succ, CNOT, exTen_psi]

/-- A 2×2 operator with two sites always raises, whatever `which` says (`fMPS.py:881` reads `i`, `j`
before assignment). -/
theorem FMPS.applyTwoSite_onesite_raises (qr rq : ND ℂ → Py (ND ℂ × ND ℂ)) (svd : Svd) (O : SetOrder) (x : FMPS ℂ) {op : ND ℂ}
    (hop : op.shape = [2, 2]) (i j : ℕ) (which : Side) (D : Option ℕ) (b : Bool) :
    x.applyTwoSite qr rq svd O op [i, j] which D b = .error .nameError := by
  have e0 : op.dim 0 = 2 := by simp [ND.dim, hop]
  have e1 : op.dim 1 = 2 := by simp [ND.dim, hop]
  unfold FMPS.applyTwoSite
  simp [e0, e1]

/-- with a single site it is `apply` -/
theorem FMPS.applyTwoSite_onesite (qr rq : ND ℂ → Py (ND ℂ × ND ℂ)) (svd : Svd) (O : SetOrder) (x : FMPS ℂ) {op : ND ℂ}
    (hop : op.shape = [2, 2]) (i : ℕ) (which : Side) (D : Option ℕ) (b : Bool) :
    x.applyTwoSite qr rq svd O op [i] which D b = x.apply op i := by
  have e0 : op.dim 0 = 2 := by simp [ND.dim, hop]
  have e1 : op.dim 1 = 2 := by simp [ND.dim, hop]
  unfold FMPS.applyTwoSite
  simp [e0, e1]

/-- a left isometry recorded as the centre -/
theorem FMPS.E_eye_leftIso (qr rq : ND ℂ → Py (ND ℂ × ND ℂ)) (O : SetOrder) {y : FMPS ℂ} {A : ND ℂ} {As : List (ND ℂ)} {n : ℕ}
    (hy : y.data = A :: As) (hA : A.shape = [2, 1, n]) (hiso : LeftIso A) (hoc : y.oc = some 0)
    (ho : y.canonical = true ∨ y.orthogonal = true) : y.E qr rq O (eyeND 2) 0 = .ok ((n : ℝ), y) := by
  obtain ⟨R, hR, hv⟩ := ncon_E O hA (op := eyeND 2) rfl
  have hval : R.val [] = (n : ℂ) := by
    rw [hv, Finset.sum_range_one]
    calc _ = ∑ b ∈ range n, (1 : ℂ) := by
          refine Finset.sum_congr rfl fun b hb => ?_
          have hb : b < n := by simpa using hb
          have := hiso b (by rwa [dim2 hA]) b (by rwa [dim2 hA])
          rw [if_pos rfl, dim0 hA, dim1 hA] at this
          rw [← this]
          refine Finset.sum_congr rfl fun s hs => ?_
          have hs : s < 2 := by simpa using hs
          simp only [eyeND, mul_ite, mul_one, mul_zero, Finset.sum_ite_eq, mem_range, hs, if_true, Finset.sum_range_one]
          ring
      _ = n := by simp
  unfold FMPS.E
  have hre : y.recenter qr rq [0] = .ok y := by
    unfold FMPS.recenter
    rw [if_neg]
    rcases ho with h | h <;> simp [h, hoc]
  have hg : pyGet y.data 0 = .ok A := by rw [hy]; rfl
  rw [hre, ok_bind, hg, ok_bind, hR, ok_bind, hval]
  simp

/-- **C24 fails after `apply_two_site`**: the identity gate on sites 0 and 1, applied to a state whose
centre is site 0, leaves the state but moves the centre; `E(identity, 0)`, which is 1 in this state,
then returns at least 2, whatever LAPACK returns. -/
theorem FMPS.applyTwoSite_stale {qr rq : ND ℂ → Py (ND ℂ × ND ℂ)} (hqr : QRLaw qr) (hrq : RQLaw rq) (svd : Svd) (O : SetOrder) :
    ∃ y z v, (exTwo 2).mixedOrthogonalise qr rq 0 = .ok y ∧ y.applyTwoSite qr rq svd O (eyeND 4) [0, 1] = .ok z ∧
      (∀ s, InB [2, 2] s → psi z.data s = psi y.data s) ∧
      opExpect [2, 2] z.data 0 1 (matElem [2] (eyeND 2)) / braket [2, 2] z.data z.data = 1 ∧
      z.E qr rq O (eyeND 2) 0 = .ok (v, z) ∧ 2 ≤ v := by
  obtain ⟨y, hy, h1, hoc, h2, h3, c, hc, h4⟩ := FMPS.mixedOrthogonalise_honest hqr hrq (exTwo_holds 2) (exTwo_pos 2)
    exTwo_nonzero (oc := 0) (by simp)
  have ho : y.orthogonal = true := by
    obtain ⟨y', As1, A, As2, n, c, hy', -, -, -, -, -, -, ho, -⟩ :=
      FMPS.mixedOrthogonalise_spec hqr hrq (exTwo_holds 2) (exTwo_pos 2) exTwo_nonzero (oc := 0) (by simp)
    rw [hy] at hy'
    cases hy'
    exact ho
  obtain ⟨z, hz, g⟩ := FMPS.applyTwoSite_neighbours hqr hrq svd O h1.holds.chain h1.pos (i := 0) (d := 2) rfl rfl
    (op := eyeND 4) rfl (which := .l) (by simp) false
  have hpsi : ∀ s, InB [2, 2] s → psi z.data s = psi y.data s := by
    intro s hs
    rw [g.state s hs]
    exact gateAct_eye (by simp) (ds := [2, 2]) rfl rfl hs
  have hch := g.chain
  obtain ⟨A, B, hd⟩ : ∃ A B, z.data = [A, B] := List.length_eq_two.1 (by simpa using hch.length_eq)
  rw [hd] at hch
  obtain ⟨n, hA, m, hB, hm⟩ := hch
  have hm : m = 1 := hm
  subst hm
  have hval : ∀ s t, psi z.data [s, t] = ∑ b ∈ range n, A.val [s, 0, b] * B.val [t, b, 0] := by
    intro s t
    rw [psi_eq_amp (ss := [s, t]) g.chain (by simp [hd]) rfl, hd]
    simp only [amp_cons, dim2 hA, dim2 hB, Finset.sum_range_one]
    simp
  have val : ∀ s < 2, ∀ t < 2, psi (exTwo 2).data [s, t] = c * psi z.data [s, t] := by
    intro s hs t ht
    rw [h4 [s, t] (by simp [InB, List.replicate, hs, ht]), hpsi [s, t] (by simp [InB, hs, ht])]
  have hn : 2 ≤ n := by
    by_contra hlt
    have v00 : c * psi z.data [0, 0] = 2 := by
      rw [← val 0 (by simp) 0 (by simp)]; simp [psi, exTwo, exData, pathProd, ND.dim, Finset.sum_range_succ]
    have v01 : c * psi z.data [0, 1] = 2 * Complex.I := by
      rw [← val 0 (by simp) 1 (by simp)]; simp [psi, exTwo, exData, pathProd, ND.dim, Finset.sum_range_succ]
    have v10 : c * psi z.data [1, 0] = 2 * Complex.I := by
      rw [← val 1 (by simp) 0 (by simp)]; simp [psi, exTwo, exData, pathProd, ND.dim, Finset.sum_range_succ]
    have v11 : c * psi z.data [1, 1] = 2 := by
      rw [← val 1 (by simp) 1 (by simp)]; simp [psi, exTwo, exData, pathProd, ND.dim, Finset.sum_range_succ]
    have h01 : n = 0 ∨ n = 1 := by omega
    rcases h01 with rfl | rfl
    · rw [hval] at v00
      simp at v00
    · have hdet : psi z.data [0, 0] * psi z.data [1, 1] = psi z.data [0, 1] * psi z.data [1, 0] := by
        simp only [hval, Finset.sum_range_one]; ring
      have : (2 : ℂ) * 2 = 2 * Complex.I * (2 * Complex.I) := by
        calc (2 : ℂ) * 2 = (c * psi z.data [0, 0]) * (c * psi z.data [1, 1]) := by rw [v00, v11]
          _ = (c * psi z.data [0, 1]) * (c * psi z.data [1, 0]) := by linear_combination c * c * hdet
          _ = _ := by rw [v01, v10]
      have h := congrArg Complex.re this
      norm_num at h
  have hiso : LeftIso A := g.left rfl 0 (by simp) (by simp) A (by simp [hd])
  have hzoc : z.oc = some 0 := by rw [g.rest]; exact hoc
  have hzo : z.orthogonal = true := by rw [g.rest]; exact ho
  have hbr : braket [2, 2] z.data z.data = 1 := by
    rw [← h3]
    exact sumIdx_congr fun s hs => by rw [hpsi s hs]
  refine ⟨y, z, n, hy, hz, hpsi, ?_, FMPS.E_eye_leftIso qr rq O hd hA hiso hzoc (.inr hzo), by exact_mod_cast hn⟩
  rw [hbr, div_one, ← hbr]
  simp [opExpect, braket, sumIdx_cons, sumIdx_nil, Finset.sum_range_succ, matElem, eyeND]

end Xmps
