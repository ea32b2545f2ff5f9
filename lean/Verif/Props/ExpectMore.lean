import Verif.Props.Expect

/-!
# C23: strings of operators, full-size operators, reduced density matrices; the transposition in `E`
-/

namespace Xmps

open Finset Xmps.Spec Xmps.Ncon

/-! ### strings of one-site operators -/

theorem mapM_range_ok {α : Type} {f : ℕ → Py α} {g : ℕ → α} : ∀ (k a : ℕ), (∀ i, a ≤ i → i < a + k → f i = .ok (g i)) →
    (List.range' a k).mapM f = .ok ((List.range' a k).map g)
  | 0, a, _ => by simp
  | k + 1, a, h => by
    rw [List.range'_succ, List.mapM_cons, h a (by omega) (by omega), mapM_range_ok k (a + 1) (fun i h1 h2 => h i (by omega) (by omega))]
    rfl

theorem netTerm_pairs (ρ : ℤ → ℕ) : ∀ {ops : List (ND ℂ)} {S T : List ℤ}, ops.length = S.length → ops.length = T.length →
    netTerm ops (List.zipWith (fun a b => [a, b]) S T) ρ = prodOp ops (S.map ρ) (T.map ρ)
  | [], [], [], _, _ => rfl
  | A :: ops, s :: S, t :: T, h, h' => by
    have ih := netTerm_pairs ρ (ops := ops) (S := S) (T := T) (by simpa using h) (by simpa using h')
    simp only [netTerm, List.zipWith_cons_cons, List.prod_cons, List.map_cons, List.map_nil, prodOp] at ih ⊢
    rw [ih]
  | [], _ :: _, _, h, _ => by simp at h
  | [], [], _ :: _, _, h => by simp at h
  | _ :: _, [], _, h, _ => by simp at h
  | _ :: _, _ :: _, [], _, h => by simp at h

theorem count_pairs (x : ℤ) : ∀ {S T : List ℤ}, S.length = T.length →
    (List.zipWith (fun a b => [a, b]) S T).flatten.count x = S.count x + T.count x
  | [], [], _ => rfl
  | s :: S, t :: T, h => by
    have ih := count_pairs x (S := S) (T := T) (by simpa using h)
    simp only [List.zipWith_cons_cons, List.flatten_cons, List.count_append, List.count_cons, List.count_nil, ih]
    omega
  | [], _ :: _, h => by simp at h
  | _ :: _, [], h => by simp at h

theorem shapes_pairs {dim : ℤ → ℕ} {d : ℕ} : ∀ {ops : List (ND ℂ)} {S T : List ℤ}, ops.length = S.length → ops.length = T.length →
    (∀ A ∈ ops, A.shape = [d, d]) → (∀ x ∈ S, dim x = d) → (∀ x ∈ T, dim x = d) →
    List.Forall₂ (fun (A : ND ℂ) (l : List ℤ) => A.shape = l.map dim) ops (List.zipWith (fun a b => [a, b]) S T)
  | [], [], [], _, _, _, _, _ => .nil
  | A :: ops, s :: S, t :: T, h, h', hA, hS, hT => by
    refine .cons ?_ (shapes_pairs (by simpa using h) (by simpa using h') (fun B hB => hA B (by simp [hB]))
      (fun x hx => hS x (by simp [hx])) (fun x hx => hT x (by simp [hx])))
    simp [hA A (by simp), hS s (by simp), hT t (by simp)]
  | [], _ :: _, _, h, _, _, _, _ => by simp at h
  | [], [], _ :: _, _, h, _, _, _ => by simp at h
  | _ :: _, [], _, h, _, _, _, _ => by simp at h
  | _ :: _, _ :: _, [], _, h, _, _, _ => by simp at h

/-- **C23** for `E_k(.., single_string=True)`: the operator is the tensor product of the list. -/
theorem FMPS.EkString_spec {qr rq : ND ℂ → Py (ND ℂ × ND ℂ)} (hqr : QRLaw qr) (hrq : RQLaw rq) (O : SetOrder)
    {x : FMPS ℂ} {d L i k : ℕ} (hx : x.Honest (List.replicate L d)) {ops : List (ND ℂ)} (hk : 0 < k) (hik : i + k ≤ L)
    (hlen : ops.length = k) (ho : ∀ A ∈ ops, A.shape = [d, d]) :
    ∃ v y, x.EkString qr rq O ops (List.range' i k) = .ok (v, y) ∧ y.Honest (List.replicate L d) ∧
      SameRay (List.replicate L d) x.data y.data ∧
      v = (opExpect (List.replicate L d) x.data i k (prodOp ops) / braket (List.replicate L d) x.data x.data).re := by
  obtain ⟨hs, hd, hL⟩ := hx.range_sites hik
  obtain ⟨y, c, hy, h1, hc, h2, h3, h4⟩ := hx.recenter hqr hrq (sites := List.range' i k) (by simp; omega) hs
  obtain ⟨Ms, m, n, hMs, hch, hlM, hexp, -⟩ := centre_block h1 hk hik hc h2
  obtain ⟨-, hll, hget⟩ := linksOp_split hk
  have lS : (physS k).length = k := by simp [physS]
  have lT : (physT k).length = k := by simp [physT]
  have hrep : ∀ {dim : ℤ → ℕ} {l : List ℤ}, l.map dim = List.replicate k d → ∀ z ∈ l, dim z = d := by
    intro dim l h z hz
    exact List.eq_of_mem_replicate (h ▸ List.mem_map_of_mem hz)
  obtain ⟨R, hR, hv⟩ := nc_links O hk hch hlM (MM := ops) (w := List.zipWith (fun a b => [a, b]) (physS k) (physT k))
    (G := prodOp ops)
    (by intro dim h h'; exact shapes_pairs (by omega) (by omega) ho (hrep h) (hrep h')) (by intro z; exact count_pairs z (by omega))
    (by intro ρ; exact netTerm_pairs ρ (by omega) (by omega))
  refine ⟨(R.val []).re, y, ?_, h1, h4, ?_⟩
  · unfold FMPS.EkString
    rw [hy, ok_bind, hMs, ok_bind]
    simp only [List.length_range', hll]
    rw [show (2 * k + 1) / 2 = k by omega, hget, ok_bind]
    have e : (List.range k).mapM (fun i => do
        let a ← pyGet (physS k ++ physT k) i
        let b ← pyGet (physS k ++ physT k) (i + k)
        .ok [a, b]) = .ok (List.zipWith (fun a b => [a, b]) (physS k) (physT k)) := by
      rw [List.range_eq_range', mapM_range_ok (g := fun i => [(1 + i : ℤ), (k + (1 + i) : ℤ)])]
      · congr 1
        apply List.ext_getElem
        · simp [lS, lT]
        · intro j h1 h2
          simp [physS, physT]
      · intro j _ hj
        have hj : j < k := by omega
        have e1 : pyGet (physS k ++ physT k) j = .ok (1 + j : ℤ) := by
          unfold pyGet
          rw [List.getElem?_append_left (by omega)]
          simp [physS, hj]
        have e2 : pyGet (physS k ++ physT k) (j + k) = .ok (k + (1 + j) : ℤ) := by
          unfold pyGet
          rw [List.getElem?_append_right (by omega), lS, Nat.add_sub_cancel]
          simp [physT, hj]
        rw [e1, ok_bind, e2, ok_bind]
    rw [e, ok_bind, hR, ok_bind]
  · rw [← h4.opExpect (by simpa using hik) h3, hv, hexp]

/-! ### full-size operators -/

/-- **C23** for `E_L`: `⟨ψ|op|ψ⟩` (real part), without normalisation and without changing the object. -/
theorem FMPS.EL_spec (O : SetOrder) {x : FMPS ℂ} {d L : ℕ} (hx : x.Holds (List.replicate L d)) {op : ND ℂ}
    (ho : op.shape = [d ^ L, d ^ L]) :
    x.EL O op = .ok (opExpect (List.replicate L d) x.data 0 L (matElem (List.replicate L d) op)).re := by
  have hL : L ≠ 0 := by rintro rfl; exact hx.ne rfl
  have hl := hx.chain.length_eq
  rw [List.length_replicate] at hl
  have hd : x.d = d := by
    rw [hx.d]
    obtain ⟨L, rfl⟩ : ∃ L', L = L' + 1 := ⟨L - 1, by omega⟩
    simp [List.replicate_succ]
  have hxL : x.L = L := by rw [hx.len]; simp
  obtain ⟨op', hop, hop1, hop2⟩ := reshape_op ho
  obtain ⟨hsplit, -, -⟩ := linksOp_split (Nat.pos_of_ne_zero hL)
  obtain ⟨R, hR, hv⟩ := nc_links O (Nat.pos_of_ne_zero hL) hx.chain hl (MM := [op']) (w := [physS L ++ physT L])
    (G := fun s t => op'.val (s ++ t))
    (by intro dim h h'; simp [hop1, h, h']) (by intro z; simp) (by intro ρ; simp [netTerm])
  rw [hsplit] at hR
  unfold FMPS.EL
  rw [hd, hxL, hop, ok_bind, hR, ok_bind, hv]
  have := opExpect_block (ds1 := []) (ds2 := []) (As1 := []) (As2 := []) (m := 1) (n := 1) rfl hx.chain rfl hx.data_ne
    (by simp) (by simp) (matElem (List.replicate L d) op)
  simp only [List.nil_append, List.append_nil, List.length_nil, List.length_replicate] at this
  rw [this]
  refine congrArg (fun z : ℂ => Except.ok z.re) ?_
  refine sumIdx_congr fun s hs => sumIdx_congr fun t ht => ?_
  rw [hop2 s t hs ht]

/-! ### reduced density matrices -/

theorem rho_labels_nodup {k : ℕ} (h : 0 < k) : ([(1 : ℤ), (2 * k + 1 : ℤ)] ++
    ((List.range' 2 (k - 1)).map (fun (n : ℕ) => (n : ℤ)) ++ (List.range' (k + 2) (k - 1)).map (fun (n : ℕ) => (n : ℤ)))).Nodup := by
  have inj0 : Function.Injective (fun n : ℕ => (n : ℤ)) := fun a b h => by simpa using h
  have nd : ∀ a n : ℕ, (List.range' a n).Nodup := fun a n => List.nodup_range'
  simp only [List.nodup_append, (nd _ _).map inj0, List.mem_append, List.mem_map,
    List.mem_range'_1, List.nodup_cons, List.mem_cons, List.not_mem_nil, or_false, List.nodup_nil, not_false_eq_true,
    and_true, true_and]
  refine ⟨by omega, ?_, ?_⟩
  · rintro _ ⟨a, ha, rfl⟩ _ ⟨b, hb, rfl⟩; omega
  · rintro x (rfl | rfl) _ (⟨b, hb, rfl⟩ | ⟨b, hb, rfl⟩) <;> omega

theorem nc_rho (O : SetOrder) {ds : List ℕ} {As : List (ND ℂ)} {m n k : ℕ} (hk : 0 < k)
    (hA : MpsChain ds As m n) (hl : As.length = k) :
    ∃ R, nc O (As ++ As.map ND.conj) (FMPS.linksRho k) = .ok R ∧ R.shape = ds ++ ds ∧ ∀ s t, InB ds s → InB ds t →
      R.val (s ++ t) = ∑ a ∈ range m, ∑ b ∈ range n, amp As s a b * star (amp As t a b) := by
  rw [linksRho_eq hk]
  have hne : As ≠ [] := by rintro rfl; simp at hl; omega
  refine nc_outer O hA hne (rho_labels_nodup hk) ?_ ?_ ?_ (by simp [hl]) (by simp [hl]) (by simp [hl]; omega) (by simp [hl]; omega)
  · intro x hx
    simp only [List.mem_append, List.mem_map, List.mem_range'_1, List.mem_cons, List.not_mem_nil, or_false] at hx
    rcases hx with (rfl | rfl) | ⟨a, ha, rfl⟩ | ⟨a, ha, rfl⟩ <;> omega
  · rw [← List.map_append, show k + 1 = 1 + 1 * k by omega, List.range'_append, List.pairwise_map]
    exact (List.pairwise_lt_range').imp (fun h => by simp; omega)
  · intro x hx
    simp only [List.mem_append, List.mem_map, List.mem_range'_1] at hx
    rcases hx with ⟨a, ha, rfl⟩ | ⟨a, ha, rfl⟩ <;> omega

theorem SameRay.redDens {d L : ℕ} {As Bs : List (ND ℂ)} (h : SameRay (List.replicate L d) As Bs) {i k : ℕ}
    (hik : i + k ≤ L) (hb : braket (List.replicate L d) Bs Bs = 1) {s t : List ℕ} (hs : InB (List.replicate k d) s)
    (ht : InB (List.replicate k d) t) :
    Spec.redDens (List.replicate L d) Bs i k t s =
      Spec.redDens (List.replicate L d) As i k t s / braket (List.replicate L d) As As := by
  obtain ⟨c, hc, h⟩ := h
  have e0 : List.replicate L d = (List.replicate L d).take i ++ (List.replicate k d ++ (List.replicate L d).drop (i + k)) := by
    rw [List.take_replicate, List.drop_replicate, List.replicate_append_replicate, List.replicate_append_replicate]
    congr 1
    omega
  have e1 : Spec.redDens (List.replicate L d) As i k t s = star c * c * Spec.redDens (List.replicate L d) Bs i k t s := by
    unfold Spec.redDens
    rw [← sumIdx_mul_left]
    refine sumIdx_congr fun u hu => ?_
    rw [← sumIdx_mul_left]
    refine sumIdx_congr fun w hw => ?_
    rw [h _ (by rw [e0]; exact hu.append (ht.append hw)), h _ (by rw [e0]; exact hu.append (hs.append hw)), star_mul']
    ring
  have e2 : braket (List.replicate L d) As As = star c * c := by
    rw [← mul_one (star c * c), ← hb]
    unfold braket
    rw [← sumIdx_mul_left]
    refine sumIdx_congr fun s hs => ?_
    rw [h s hs, star_mul']
    ring
  have hz : star c * c ≠ 0 := mul_ne_zero (star_ne_zero.2 hc) hc
  rw [e1, e2, mul_div_cancel_left₀ _ hz]

/-- **C23** for `rho` (more than one bond value or `single_string=False`): the entries of the matrix
are those of the reduced density matrix of the normalised state. -/
theorem FMPS.rhoFull_spec {qr rq : ND ℂ → Py (ND ℂ × ND ℂ)} (hqr : QRLaw qr) (hrq : RQLaw rq) (O : SetOrder)
    {x : FMPS ℂ} {d L i k : ℕ} (hx : x.Honest (List.replicate L d)) (hk : 0 < k) (hik : i + k ≤ L) :
    ∃ R y, x.rhoFull qr rq O (List.range' i k) = .ok (R, y) ∧ y.Honest (List.replicate L d) ∧
      SameRay (List.replicate L d) x.data y.data ∧ R.shape = [d ^ k, d ^ k] ∧
      ∀ s t, InB (List.replicate k d) s → InB (List.replicate k d) t →
        matElem (List.replicate k d) R t s =
          redDens (List.replicate L d) x.data i k t s / braket (List.replicate L d) x.data x.data := by
  obtain ⟨hs, hd, hL⟩ := hx.range_sites hik
  obtain ⟨y, c, hy, h1, hc, h2, h3, h4⟩ : ∃ y c, x.recenterRho qr rq (List.range' i k) = .ok y ∧
      y.Honest (List.replicate L d) ∧ c ∈ List.range' i k ∧ CenteredAt y.data c ∧
      braket (List.replicate L d) y.data y.data = 1 ∧ SameRay (List.replicate L d) x.data y.data := by
    unfold FMPS.recenterRho
    by_cases h : x.oc = none ∨ (∃ c, x.oc = some c ∧ c ∉ List.range' i k)
    · rw [if_pos h]
      obtain ⟨k, rfl⟩ : ∃ k', k = k' + 1 := ⟨k - 1, by omega⟩
      obtain ⟨y, hy, h1, -, h2, h3, h4⟩ := FMPS.mixedOrthogonalise_honest hqr hrq hx.holds hx.pos hx.nonzero
        (hs i (by simp))
      exact ⟨y, i, by rw [List.range'_succ, pyGet_cons_zero, ok_bind, hy], h1, by simp, h2, h3, h4⟩
    · rw [if_neg h]
      push Not at h
      obtain ⟨hn, hm⟩ := h
      obtain ⟨c, hc⟩ := Option.ne_none_iff_exists'.1 hn
      have hm := hm c hc
      obtain ⟨h3, h4⟩ := hx.centre c hc (hs c hm)
      exact ⟨x, c, rfl, hx, hm, h3, h4, SameRay.refl _ _⟩
  obtain ⟨Ms, m, n, hMs, hch, hlM, -, hred⟩ := centre_block h1 hk hik hc h2
  obtain ⟨R, hR, hRs, hv⟩ := nc_rho O hk hch hlM
  have hd0 : 0 < d := by
    obtain ⟨A, As, hA⟩ := List.exists_cons_of_ne_nil hx.holds.data_ne
    have hch := hx.holds.chain
    rw [hA] at hch
    obtain ⟨L, rfl⟩ : ∃ L', L = L' + 1 := ⟨L - 1, by omega⟩
    rw [List.replicate_succ] at hch
    obtain ⟨m, hsh, -⟩ := hch
    exact hx.pos A (by simp [hA]) d (by simp [hsh])
  have hdk : 0 < d ^ k := Nat.pow_pos hd0
  have hsize : R.size = d ^ k * d ^ k := by simp [ND.size, hRs, pow_add]
  refine ⟨R.reshapeR [d ^ k, d ^ k], y, ?_, h1, h4, rfl, fun s t hs ht => ?_⟩
  · unfold FMPS.rhoFull
    rw [hy, ok_bind, hMs, ok_bind]
    simp only [List.length_range', (h1.range_sites hik).2.1]
    rw [hR, ok_bind, hsize, Nat.mul_div_cancel _ hdk]
    rw [show R.reshape [d ^ k, d ^ k] = .ok (R.reshapeR [d ^ k, d ^ k]) by
      unfold ND.reshape; rw [if_pos (by simp [hsize])], ok_bind]
  · rw [← h4.redDens hik h3 hs ht, hred s t hs ht, ← hv t s ht hs]
    unfold matElem ND.reshapeR
    simp only [hRs]
    congr 1
    have : ravel [d ^ k, d ^ k] [ravel (List.replicate k d) t, ravel (List.replicate k d) s] =
        ravel (List.replicate k d ++ List.replicate k d) (t ++ s) := by
      rw [ravel_append _ _ ht.length_eq]
      simp
    rw [this, unravel_ravel (ht.append hs)]

/-- expectation value and reduced density matrix: `⟨G⟩ = Σ_{s,t} G_{st} ρ_{ts}` -/
theorem opExpect_eq_trace {ds1 ds0 ds2 : List ℕ} (As : List (ND ℂ)) (G : List ℕ → List ℕ → ℂ) :
    opExpect (ds1 ++ (ds0 ++ ds2)) As ds1.length ds0.length G =
      sumIdx ds0 fun s => sumIdx ds0 fun t => G s t * redDens (ds1 ++ (ds0 ++ ds2)) As ds1.length ds0.length t s := by
  rw [opExpect_split]
  refine sumIdx_congr fun s _ => sumIdx_congr fun t _ => ?_
  rw [redDens_split]
  congr 1
  exact sumIdx_congr fun u _ => sumIdx_congr fun w _ => mul_comm _ _

/-- **C23**: `Tr(rho(sites) op)` is the expectation value that `E_k(op, sites)` returns. -/
theorem FMPS.rho_trace {qr rq : ND ℂ → Py (ND ℂ × ND ℂ)} (hqr : QRLaw qr) (hrq : RQLaw rq) (O : SetOrder)
    {x : FMPS ℂ} {d L i k : ℕ} (hx : x.Honest (List.replicate L d)) {op : ND ℂ} (hk : 0 < k) (hik : i + k ≤ L)
    (ho : op.shape = [d ^ k, d ^ k]) :
    ∃ R y v z, x.rhoFull qr rq O (List.range' i k) = .ok (R, y) ∧ x.Ek qr rq O op (List.range' i k) = .ok (v, z) ∧
      v = (∑ a ∈ range (d ^ k), ∑ b ∈ range (d ^ k), op.val [a, b] * R.val [b, a]).re := by
  obtain ⟨R, y, hR, -, -, -, hv⟩ := FMPS.rhoFull_spec hqr hrq O hx hk hik
  obtain ⟨v, z, hE, -, -, he⟩ := FMPS.Ek_spec hqr hrq O hx hk hik ho
  refine ⟨R, y, v, z, hR, hE, ?_⟩
  rw [he]
  have e0 : List.replicate L d = List.replicate i d ++ (List.replicate k d ++ List.replicate (L - (i + k)) d) := by
    rw [List.replicate_append_replicate, List.replicate_append_replicate]
    congr 1
    omega
  have e1 : ∀ f : ℕ → ℕ → ℂ, ∑ a ∈ range (d ^ k), ∑ b ∈ range (d ^ k), f a b =
      sumIdx (List.replicate k d) fun s => sumIdx (List.replicate k d) fun t =>
        f (ravel (List.replicate k d) s) (ravel (List.replicate k d) t) := by
    intro f
    rw [sumIdx_eq_range]
    simp only [List.prod_replicate]
    refine Finset.sum_congr rfl fun a ha => ?_
    rw [sumIdx_eq_range]
    simp only [List.prod_replicate]
    refine Finset.sum_congr rfl fun b hb => ?_
    rw [ravel_unravel (by simpa using ha), ravel_unravel (by simpa using hb)]
  rw [e1]
  have := opExpect_eq_trace (ds1 := List.replicate i d) (ds0 := List.replicate k d) (ds2 := List.replicate (L - (i + k)) d)
    x.data (matElem (List.replicate k d) op)
  rw [List.length_replicate, List.length_replicate, ← e0] at this
  rw [this]
  refine congrArg Complex.re ?_
  rw [div_eq_mul_inv, ← sumIdx_mul_right]
  refine sumIdx_congr fun s hs => ?_
  rw [← sumIdx_mul_right]
  refine sumIdx_congr fun t ht => ?_
  have := hv s t hs ht
  unfold matElem at this ⊢
  rw [this, div_eq_mul_inv, mul_assoc]

/-! ### one site: the matrix is used transposed -/

/-- **C23** for `E`, symmetric matrices only. -/
theorem FMPS.E_symmetric_partial {qr rq : ND ℂ → Py (ND ℂ × ND ℂ)} (hqr : QRLaw qr) (hrq : RQLaw rq) (O : SetOrder)
    {x : FMPS ℂ} {ds : List ℕ} (hx : x.Honest ds) {op : ND ℂ} {site d : ℕ} (hs : site < ds.length)
    (hd : ds.getD site 0 = d) (ho : op.shape = [d, d]) (hsym : ∀ a b, op.val [a, b] = op.val [b, a]) :
    ∃ v y, x.E qr rq O op site = .ok (v, y) ∧ y.Honest ds ∧ SameRay ds x.data y.data ∧
      v = (opExpect ds x.data site 1 (matElem [d] op) / braket ds x.data x.data).re := by
  obtain ⟨v, y, h1, h2, h3, h4⟩ := FMPS.E_spec hqr hrq O hx hs hd ho
  refine ⟨v, y, h1, h2, h3, ?_⟩
  have : (fun s t => matElem [d] op t s) = matElem [d] op := by
    funext s t
    exact hsym _ _
  rw [h4, this]

/-- an object straight from the constructor is honest -/
theorem FMPS.fresh_honest {x : FMPS ℂ} {ds : List ℕ} (hx : x.Holds ds) (hp : PosDims x.data)
    (hnz : ∃ s, InB ds s ∧ psi x.data s ≠ 0) (h1 : x.canonical = false) (h2 : x.orthogonal = false) (h3 : x.oc = none) :
    x.Honest ds := ⟨hx, hp, hnz, by simp [h3], by simp [h1, h2]⟩

theorem exOne_honest (v : List ℂ) (hl : 0 < v.length) (hv : ∃ s < v.length, v.getD s 0 ≠ 0) : (exOne v).Honest [v.length] := by
  refine FMPS.fresh_honest (exOne_holds v) ?_ ?_ rfl rfl rfl
  · intro A hA n hn
    simp only [exOne, List.mem_singleton] at hA
    subst hA
    simp only [FMPS.column, List.mem_cons] at hn
    rcases hn with rfl | rfl | rfl | h
    · exact hl
    · omega
    · omega
    · simp at h
  · obtain ⟨s, hs, hne⟩ := hv
    exact ⟨[s], by simp [InB, hs], by rw [exOne_psi]; exact hne⟩

/-- `σ_y` -/
def sigmaY : ND ℂ := ⟨[2, 2], fun
  | [0, 1] => -Complex.I
  | [1, 0] => Complex.I
  | _ => 0⟩

/-- **C23 fails for `E`**: in the state `(1, i)/√2` the Hermitian matrix `σ_y` has expectation value
1, `E_k(σ_y, [0])` returns 1 and `E(σ_y, 0)` returns -1, whatever factorisations LAPACK returns. -/
theorem FMPS.E_transposed {qr rq : ND ℂ → Py (ND ℂ × ND ℂ)} (hqr : QRLaw qr) (hrq : RQLaw rq) (O : SetOrder) :
    (opExpect [2] (exOne [1, Complex.I]).data 0 1 (matElem [2] sigmaY) /
      braket [2] (exOne [1, Complex.I]).data (exOne [1, Complex.I]).data = 1) ∧
    (∃ y, (exOne [1, Complex.I]).Ek qr rq O sigmaY [0] = .ok (1, y)) ∧
    ∃ y, (exOne [1, Complex.I]).E qr rq O sigmaY 0 = .ok (-1, y) := by
  have hh : (exOne [1, Complex.I]).Honest [2] := exOne_honest [1, Complex.I] (by simp) ⟨0, by simp, by simp⟩
  have hb : braket [2] (exOne [1, Complex.I]).data (exOne [1, Complex.I]).data = 2 := by
    simp only [braket, sumIdx_cons, sumIdx_nil, exOne_psi, Finset.sum_range_succ, Finset.sum_range_zero]
    norm_num
  have he : opExpect [2] (exOne [1, Complex.I]).data 0 1 (matElem [2] sigmaY) = 2 := by
    simp only [opExpect, sumIdx_cons, sumIdx_nil, Finset.sum_range_succ, Finset.sum_range_zero,
      List.drop_zero, List.take_succ_cons, List.take_zero, List.nil_append, List.take_nil]
    simp only [zero_add, List.drop_succ_cons, List.drop_nil, List.append_nil, exOne_psi, matElem, sigmaY, ravel_cons,
      ravel_nil, List.prod_nil, mul_one, add_zero]
    norm_num
  have he' : opExpect [2] (exOne [1, Complex.I]).data 0 1 (fun s t => matElem [2] sigmaY t s) = -2 := by
    simp only [opExpect, sumIdx_cons, sumIdx_nil, Finset.sum_range_succ, Finset.sum_range_zero,
      List.drop_zero, List.take_succ_cons, List.take_zero, List.nil_append, List.take_nil]
    simp only [zero_add, List.drop_succ_cons, List.drop_nil, List.append_nil, exOne_psi, matElem, sigmaY, ravel_cons,
      ravel_nil, List.prod_nil, mul_one, add_zero]
    norm_num
  refine ⟨by rw [hb, he]; norm_num, ?_, ?_⟩
  · obtain ⟨v, y, h1, -, -, h4⟩ := FMPS.Ek_spec hqr hrq O (L := 1) (d := 2) (i := 0) (k := 1) hh (op := sigmaY) (by simp) (by simp) rfl
    refine ⟨y, ?_⟩
    rw [show List.range' 0 1 = [0] from rfl] at h1
    rw [h1, h4]
    simp only [List.replicate_one, he, hb]
    norm_num
  · obtain ⟨v, y, h1, -, -, h4⟩ := FMPS.E_spec hqr hrq O hh (op := sigmaY) (site := 0) (d := 2) (by simp) (by simp) rfl
    refine ⟨y, ?_⟩
    rw [h1, h4, he', hb]
    norm_num

/-- `local_overlap` of two states whose bond dimensions exceed 1: `Re Tr(ρ_other ρ_self)` of the
reduced density matrices of the normalised states. -/
theorem FMPS.localOverlap_spec {qr rq : ND ℂ → Py (ND ℂ × ND ℂ)} (hqr : QRLaw qr) (hrq : RQLaw rq) (O : SetOrder)
    {x z : FMPS ℂ} {d L i k D D' : ℕ} (hx : x.Honest (List.replicate L d)) (hz : z.Honest (List.replicate L d))
    (hk : 0 < k) (hik : i + k ≤ L) (hD : FMPS.bondDimension x.data = .ok D) (hD1 : D ≠ 1)
    (hD' : FMPS.bondDimension z.data = .ok D') (hD1' : D' ≠ 1) :
    ∃ v x' z', x.localOverlap qr rq O z (List.range' i k) = .ok (v, x', z') ∧ x'.Honest (List.replicate L d) ∧
      SameRay (List.replicate L d) x.data x'.data ∧ z'.Honest (List.replicate L d) ∧
      SameRay (List.replicate L d) z.data z'.data ∧
      v = (sumIdx (List.replicate k d) fun s => sumIdx (List.replicate k d) fun t =>
        redDens (List.replicate L d) z.data i k s t / braket (List.replicate L d) z.data z.data *
        (redDens (List.replicate L d) x.data i k t s / braket (List.replicate L d) x.data x.data)).re := by
  obtain ⟨R, z', hR, h1, h2, hRs, hv⟩ := FMPS.rhoFull_spec hqr hrq O hz hk hik
  obtain ⟨v, x', hE, h3, h4, he⟩ := FMPS.Ek_spec hqr hrq O hx hk hik hRs
  refine ⟨v, x', z', ?_, h3, h4, h1, h2, ?_⟩
  · unfold FMPS.localOverlap
    rw [hD, ok_bind, if_neg hD1, hD', ok_bind, if_neg hD1', hR, ok_bind]
    simp only
    rw [hE, ok_bind]
  · have e0 : List.replicate L d = List.replicate i d ++ (List.replicate k d ++ List.replicate (L - (i + k)) d) := by
      rw [List.replicate_append_replicate, List.replicate_append_replicate]
      congr 1
      omega
    have := opExpect_eq_trace (ds1 := List.replicate i d) (ds0 := List.replicate k d) (ds2 := List.replicate (L - (i + k)) d)
      x.data (matElem (List.replicate k d) R)
    rw [List.length_replicate, List.length_replicate, ← e0] at this
    rw [he, this]
    refine congrArg Complex.re ?_
    rw [div_eq_mul_inv, ← sumIdx_mul_right]
    refine sumIdx_congr fun s hs => ?_
    rw [← sumIdx_mul_right]
    refine sumIdx_congr fun t ht => ?_
    rw [hv t s ht hs, mul_assoc, ← div_eq_mul_inv]

/-! ### concrete objects meeting the hypotheses -/

theorem exTwo_honest : (exTwo 2).Honest (List.replicate 2 2) := by
  refine FMPS.fresh_honest (exTwo_holds 2) (exTwo_pos 2) ⟨[0, 0], by simp [InB, List.replicate_succ], ?_⟩ rfl rfl rfl
  simp [psi, exTwo, exData, pathProd, ND.dim, Finset.sum_range_succ]

section examples
variable {qr rq : ND ℂ → Py (ND ℂ × ND ℂ)} (hqr : QRLaw qr) (hrq : RQLaw rq) (O : SetOrder)
include hqr hrq

example := FMPS.mixedOrthogonalise_spec hqr hrq (exTwo_holds 2) (exTwo_pos 2) exTwo_honest.nonzero (oc := 1) (by simp)
example := FMPS.E_spec hqr hrq O exTwo_honest (op := sigmaY) (site := 1) (d := 2) (by simp) (by simp) rfl
example := FMPS.Ek_spec hqr hrq O exTwo_honest (op := sigmaY) (i := 1) (k := 1) (by simp) (by simp) rfl
example := FMPS.Ek_spec hqr hrq O exTwo_honest (op := eyeND 4) (i := 0) (k := 2) (by simp) (by simp) rfl
example := FMPS.EkString_spec hqr hrq O exTwo_honest (ops := [sigmaY, sigmaY]) (i := 0) (k := 2) (by simp) (by simp) rfl
  (by simp [sigmaY])
example := FMPS.rhoFull_spec hqr hrq O exTwo_honest (i := 1) (k := 1) (by simp) (by simp)
example := FMPS.rho_trace hqr hrq O exTwo_honest (op := sigmaY) (i := 1) (k := 1) (by simp) (by simp) rfl
example := FMPS.E_symmetric_partial hqr hrq O exTwo_honest (op := eyeND 2) (site := 1) (d := 2) (by simp) (by simp) rfl
  (by intro a b; simp [eyeND, eq_comm])
example := FMPS.localOverlap_spec hqr hrq O exTwo_honest exTwo_honest (i := 1) (k := 1) (by simp) (by simp) (D := 2) rfl
  (by simp) (D' := 2) rfl (by simp)

end examples

example (O : SetOrder) := FMPS.EL_spec O (exTwo_holds 2) (op := eyeND 4) rfl

end Xmps
