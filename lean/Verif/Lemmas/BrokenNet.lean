import Verif.Lemmas.ChainNet
import Verif.Lemmas.Tangent

/-! # A sandwich whose conjugate chain is broken at one site -/

namespace Xmps

open Finset Xmps.Spec Xmps.Ncon

variable {K : Type}

/-- the last entry of `a :: l` -/
def endOf {α : Type} : α → List α → α
  | a, [] => a
  | _, b :: l => endOf b l

theorem endOf_map {α β : Type} (f : α → β) : ∀ (a : α) (l : List α), endOf (f a) (l.map f) = f (endOf a l)
  | _, [] => rfl
  | _, b :: l => endOf_map f b l

theorem endOf_mem {α : Type} : ∀ (a : α) (l : List α), endOf a l = a ∧ l = [] ∨ endOf a l ∈ l
  | _, [] => .inl ⟨rfl, rfl⟩
  | _, b :: l => .inr (by
    rcases endOf_mem b l with ⟨h, rfl⟩ | h
    · simp [endOf]
    · simp [endOf, h])

theorem endOf_snoc {α : Type} : ∀ (a : α) (l : List α) (b : α), endOf a (l ++ [b]) = b
  | _, [], _ => rfl
  | _, c :: l, b => endOf_snoc c l b

theorem endOf_dims : ∀ {ds : List ℕ} {As : List (ND K)} {l r : ℕ}, MpsChain ds As l r → endOf l (As.map (·.dim 2)) = r
  | [], [], _, _, h => h
  | _ :: _, _ :: _, _, _, ⟨m, hA, h⟩ => by
    simp only [List.map_cons, endOf, dim2 hA]
    exact endOf_dims h
  | [], _ :: _, _, _, h => by simp at h
  | _ :: _, [], _, _, h => by simp at h

theorem chainL_count_end (x : ℤ) : ∀ {ss : List ℤ} {b0 : ℤ} {B : List ℤ}, ss.length = B.length →
    (chainL ss (b0 :: B)).flatten.count x + [endOf b0 B].count x = ss.count x + (b0 :: B).count x + B.count x
  | [], b0, [], _ => by simp [chainL, endOf]
  | s :: ss, b0, b :: B, h => by
    have ih := chainL_count_end x (ss := ss) (b0 := b) (B := B) (by simpa using h)
    simp only [chainL, endOf, List.flatten_cons, List.count_append, List.count_cons, List.count_nil] at ih ⊢
    omega
  | [], _, _ :: _, h => by simp at h
  | _ :: _, _, [], h => by simp at h

/-- the sum over all bonds but the first, with a function of the last -/
theorem path_end [CommSemiring K] : ∀ {ds : List ℕ} {As : List (ND K)} {ss : List ℕ} {l r : ℕ},
    MpsChain ds As l r → ss.length = ds.length → ∀ a < l, ∀ f : ℕ → K,
    sumIdx (As.map (·.dim 2)) (fun bs => pathProd As ss (a :: bs) * f (endOf a bs)) = ∑ b ∈ range r, amp As ss a b * f b
  | [], [], [], l, r, h, _, a, ha, f => by
    have : l = r := h
    subst this
    simp only [List.map_nil, sumIdx_nil, pathProd, endOf, one_mul, amp_nil, ite_mul, zero_mul]
    rw [Finset.sum_ite_eq, if_pos (Finset.mem_range.2 ha)]
  | d :: ds, A :: As, s :: ss, l, r, ⟨m, hA, h⟩, hl, a, ha, f => by
    simp only [List.map_cons, sumIdx_cons, amp_cons, Finset.sum_mul]
    rw [Finset.sum_comm (s := range r)]
    refine Finset.sum_congr rfl fun c hc => ?_
    have ih := path_end h (ss := ss) (by simpa using hl) c (by simpa [dim2 hA] using hc) f
    rw [Finset.sum_congr rfl fun b _ => by rw [mul_assoc], ← Finset.mul_sum, ← ih, ← sumIdx_mul_left]
    refine sumIdx_congr fun bs _ => ?_
    simp only [pathProd, endOf, mul_assoc]
  | [], _ :: _, _, _, _, h, _, _, _, _ => by simp at h
  | _ :: _, [], _, _, _, h, _, _, _, _ => by simp at h
  | [], [], _ :: _, _, _, _, h, _, _, _ => by simp at h
  | _ :: _, _ :: _, [], _, _, _, h, _, _, _ => by simp at h

theorem amp_conj' [CommSemiring K] [StarRing K] : ∀ (As : List (ND K)) (ss : List ℕ) (a b : ℕ),
    amp (As.map ND.conj) ss a b = star (amp As ss a b)
  | [], [], a, b => by simp only [List.map_nil, amp_nil]; split_ifs <;> simp
  | A :: As, s :: ss, a, b => by
    simp only [List.map_cons, amp_cons, star_sum, star_mul']
    refine Finset.sum_congr rfl fun c _ => ?_
    rw [amp_conj' As ss c b]
    rfl
  | [], _ :: _, _, _ => by simp [amp]
  | _ :: _, [], _, _ => by simp [amp]

theorem path_end_star [CommSemiring K] [StarRing K] {ds : List ℕ} {As : List (ND K)} {ss : List ℕ} {l r : ℕ}
    (h : MpsChain ds As l r) (hl : ss.length = ds.length) {a : ℕ} (ha : a < l) (f : ℕ → K) :
    sumIdx (As.map (·.dim 2)) (fun bs => star (pathProd As ss (a :: bs)) * f (endOf a bs)) =
      ∑ b ∈ range r, star (amp As ss a b) * f b := by
  have := path_end (mpsChain_conj h) hl a ha f
  rw [dims2_conj] at this
  simpa only [pathProd_conj, amp_conj'] using this

theorem netTerm_cons [CommMonoid K] (ρ : ℤ → ℕ) (A : ND K) (AA : List (ND K)) (l : List ℤ) (v : List (List ℤ)) :
    netTerm (A :: AA) (l :: v) ρ = A.val (l.map ρ) * netTerm AA v ρ := by
  simp [netTerm]

/-- `⟨As1 .. pr .. As2| H |As⟩` with the tensor `pr` in the broken chain and the first bond of the right part open -/
theorem nc_broken (O : SetOrder) {ds1 ds2 : List ℕ} {As1 As2 As : List (ND ℂ)} {d p q d1 p1 : ℕ} (h1 : MpsChain ds1 As1 1 p)
    (h2 : MpsChain ds2 As2 q 1) (hA : MpsChain (ds1 ++ d :: ds2) As 1 1) {pr H : ND ℂ} (hpr : pr.shape = [d1, p1, d, p])
    (hH : H.shape = (ds1 ++ d :: ds2) ++ (ds1 ++ d :: ds2)) {S1 S2 T B1 B2 C : List ℤ} {s0 b0 bk : ℤ} (hbk : bk = endOf (-3) B2)
    (hnd : (S1 ++ (s0 :: (S2 ++ (T ++ (b0 :: (B1 ++ (B2 ++ C))))))).Nodup)
    (hpos : ∀ x ∈ S1 ++ (s0 :: (S2 ++ (T ++ (b0 :: (B1 ++ (B2 ++ C)))))), 0 < x)
    (lS1 : S1.length = As1.length) (lS2 : S2.length = As2.length) (lT : T.length = As.length)
    (lB1 : B1.length = As1.length) (lB2 : B2.length = As2.length) (lC : As.length = C.length + 1) :
    ∃ R, nc O (As1.map ND.conj ++ (pr :: (As2.map ND.conj ++ (H :: As))))
      (chainL S1 (b0 :: B1) ++ ([-1, -2, s0, endOf b0 B1] :: (chainL S2 (-3 :: B2) ++ ((S1 ++ s0 :: S2 ++ T) :: chainL T (b0 :: C ++ [bk]))))) = .ok R ∧
      R.shape = [d1, p1, q] ∧ ∀ i j c, c < q → R.val [i, j, c] = ∑ t ∈ range d, ∑ b ∈ range p, pr.val [i, j, t, b] *
        envAmp ds1 As1 ds2 As2 (fun s => sumIdx (ds1 ++ d :: ds2) fun t => H.val (s ++ t) * psi As t) t b c := by
  have hne : As ≠ [] := by rintro rfl; simp at lC
  have e1 := h1.length_eq
  have e2 := h2.length_eq
  have eA := hA.length_eq
  set inner := (As.map (·.dim 2)).dropLast with hin
  have hlen : As.length = inner.length + 1 := hA.ds_ne hne
  set P := S1 ++ (s0 :: (S2 ++ (T ++ (b0 :: (B1 ++ (B2 ++ C)))))) with hP
  set F : List ℤ := [-1, -2, -3] with hF
  have hndF : F.Nodup := by rw [hF]; decide
  have hdis : ∀ x ∈ F, x ∉ P := by
    intro x hx h
    have := hpos x h
    simp only [hF, List.mem_cons, List.not_mem_nil, or_false] at hx
    omega
  have hndA : (F ++ P).Nodup := by
    rw [List.nodup_append]
    exact ⟨hndF, hnd, fun x hx y hy e => hdis x hx (e ▸ hy)⟩
  set Pd := ds1 ++ (d :: (ds2 ++ ((ds1 ++ d :: ds2) ++ (1 :: (As1.map (·.dim 2) ++ (As2.map (·.dim 2) ++ inner)))))) with hPd
  set dim : ℤ → ℕ := assign (F ++ P) ([d1, p1, q] ++ Pd) with hdim
  have hlenP : Pd.length = P.length := by
    simp only [hPd, hP, List.length_append, List.length_cons, List.length_map] at *
    omega
  have hmap : (F ++ P).map dim = [d1, p1, q] ++ Pd := map_assign _ _ hndA (by
    rw [List.length_append (as := F) (bs := P), List.length_append (as := [d1, p1, q]) (bs := Pd), hlenP]; rfl)
  rw [List.map_append] at hmap
  obtain ⟨hmF, hmap⟩ := List.append_inj hmap (by simp [hF])
  have hmP : P.map dim = Pd := hmap
  rw [hP, hPd] at hmap
  simp only [List.map_append, List.map_cons] at hmap
  obtain ⟨mS1, hmap⟩ := List.append_inj hmap (by simp; omega)
  rw [List.cons.injEq] at hmap
  obtain ⟨ms0, hmap⟩ := hmap
  obtain ⟨mS2, hmap⟩ := List.append_inj hmap (by simp; omega)
  obtain ⟨mT, hmap⟩ := List.append_inj hmap (by simp only [List.length_map]; omega)
  rw [List.cons.injEq] at hmap
  obtain ⟨mb0, hmap⟩ := hmap
  obtain ⟨mB1, hmap⟩ := List.append_inj hmap (by simp; omega)
  obtain ⟨mB2, mC⟩ := List.append_inj hmap (by simp; omega)
  simp only [hF, List.map_cons, List.map_nil, List.cons.injEq, and_true] at hmF
  obtain ⟨f1, f2, f3⟩ := hmF
  have mend1 : dim (endOf b0 B1) = p := by rw [← endOf_map dim, mB1, mb0, endOf_dims h1]
  have mbk : dim bk = 1 := by rw [hbk, ← endOf_map dim, mB2, f3, endOf_dims h2]
  have hcount : ∀ x, (chainL S1 (b0 :: B1) ++ ([-1, -2, s0, endOf b0 B1] :: (chainL S2 (-3 :: B2) ++ ((S1 ++ s0 :: S2 ++ T) :: chainL T (b0 :: C ++ [bk]))))).flatten.count x =
      2 * P.count x + F.count x := by
    intro x
    have c1 := chainL_count_end x (ss := S1) (b0 := b0) (B := B1) (by omega)
    have c2 := chainL_count_end x (ss := S2) (b0 := -3) (B := B2) (by omega)
    have c3 := chainL_count x (ss := T) (b0 := b0) (B := C) (bk := bk) (by omega)
    rw [← hbk] at c2
    simp only [List.flatten_append, List.flatten_cons, List.count_append, hP, hF, List.count_cons, List.count_nil] at c1 c2 c3 ⊢
    rw [c3]
    omega
  have hWL : WellLabelled (As1.map ND.conj ++ (pr :: (As2.map ND.conj ++ (H :: As))))
      (chainL S1 (b0 :: B1) ++ ([-1, -2, s0, endOf b0 B1] :: (chainL S2 (-3 :: B2) ++ ((S1 ++ s0 :: S2 ++ T) :: chainL T (b0 :: C ++ [bk]))))) dim P F := by
    refine ⟨by simp, ?_, hpos, by simp [hF], hnd, hndF, fun x hx => ?_, fun x hx => ?_, fun x hx => ?_⟩
    · refine List.rel_append (chainL_shapes (mpsChain_conj h1) mS1 ?_) (.cons ?_ (List.rel_append (chainL_shapes (mpsChain_conj h2) mS2 ?_)
        (.cons ?_ (chainL_shapes hA mT ?_))))
      · rw [dims2_conj, List.map_cons, mb0, mB1]
      · simp [hpr, f1, f2, ms0, mend1]
      · rw [dims2_conj, List.map_cons, f3, mB2]
      · simp [hH, mS1, mS2, ms0, mT]
      · rw [hA.dims2_last hne]
        simp [mb0, mC, mbk, hin]
    · rw [hcount, List.count_eq_one_of_mem hnd hx, List.count_eq_zero_of_not_mem]
      exact fun h => hdis x h hx
    · rw [hcount, List.count_eq_one_of_mem hndF hx, List.count_eq_zero_of_not_mem (hdis x hx)]
    · have := List.count_pos_iff.2 hx
      rw [hcount] at this
      rcases Nat.eq_zero_or_pos (P.count x) with e | e
      · exact .inr (List.count_pos_iff.1 (by omega))
      · exact .inl (List.count_pos_iff.1 e)
  obtain ⟨R, hR, hs, hv⟩ := nc_eval' O dim P F hWL (by rw [hF]; decide)
  refine ⟨R, hR, by rw [hs]; simp [hF, f1, f2, f3], fun i j c hc => ?_⟩
  rw [hv [i, j, c] (by simp [hF])]
  have hρ := map_assign F [i, j, c] hndF (by simp [hF])
  set ρ := assign F [i, j, c]
  -- the value of one term
  have hval : ∀ s1 t s2 T' β0 β1 β2 γ, InB ds1 s1 → InB ds2 s2 → InB (ds1 ++ d :: ds2) T' → InB (As1.map (·.dim 2)) β1 → InB (As2.map (·.dim 2)) β2 →
      InB inner γ → netTerm (As1.map ND.conj ++ (pr :: (As2.map ND.conj ++ (H :: As))))
      (chainL S1 (b0 :: B1) ++ ([-1, -2, s0, endOf b0 B1] :: (chainL S2 (-3 :: B2) ++ ((S1 ++ s0 :: S2 ++ T) :: chainL T (b0 :: C ++ [bk])))))
      (updates ρ P (s1 ++ (t :: (s2 ++ (T' ++ (β0 :: (β1 ++ (β2 ++ γ)))))))) =
      star (pathProd As1 s1 (β0 :: β1)) * (pr.val [i, j, t, endOf β0 β1] * (star (pathProd As2 s2 (c :: β2)) *
        (H.val ((s1 ++ t :: s2) ++ T') * pathProd As T' (β0 :: γ ++ [endOf c β2])))) := by
    intro s1 t s2 T' β0 β1 β2 γ k1 k2 k3 k4 k5 k6
    have q1 := k1.length_eq
    have q2 := k2.length_eq
    have q3 := k3.length_eq
    have q4 := k4.length_eq
    have q5 := k5.length_eq
    have q6 := k6.length_eq
    rw [List.length_map] at q4 q5
    set ks := s1 ++ (t :: (s2 ++ (T' ++ (β0 :: (β1 ++ (β2 ++ γ)))))) with hks
    have hm := map_updates ρ P ks hnd (by rw [← hlenP]; simp only [hks, hPd, List.length_append, List.length_cons, List.length_map] at *; omega)
    have hmF : F.map (updates ρ P ks) = [i, j, c] := by rw [map_updates_disjoint _ _ _ _ hdis, hρ]
    set σ := updates ρ P ks
    rw [hP, hks] at hm
    simp only [List.map_append, List.map_cons] at hm
    obtain ⟨n1, hm⟩ := List.append_inj hm (by simp; omega)
    rw [List.cons.injEq] at hm
    obtain ⟨n2, hm⟩ := hm
    obtain ⟨n3, hm⟩ := List.append_inj hm (by simp; omega)
    obtain ⟨n4, hm⟩ := List.append_inj hm (by simp only [List.length_map]; omega)
    rw [List.cons.injEq] at hm
    obtain ⟨n5, hm⟩ := hm
    obtain ⟨n6, hm⟩ := List.append_inj hm (by simp; omega)
    obtain ⟨n7, n8⟩ := List.append_inj hm (by simp; omega)
    simp only [hF, List.map_cons, List.map_nil, List.cons.injEq, and_true] at hmF
    obtain ⟨g1, g2, g3⟩ := hmF
    have n9 : σ (endOf b0 B1) = endOf β0 β1 := by rw [← endOf_map σ, n5, n6]
    have n10 : σ bk = endOf c β2 := by rw [hbk, ← endOf_map σ, g3, n7]
    have cl1 : (chainL S1 (b0 :: B1)).length = S1.length := chainL_length (by simp; omega)
    have cl2 : (chainL S2 (-3 :: B2)).length = S2.length := chainL_length (by simp; omega)
    rw [netTerm_append σ (by rw [cl1]; simp [lS1]), netTerm_cons, netTerm_append σ (by rw [cl2]; simp [lS2]), netTerm_cons,
      netTerm_chain σ (by simp [lS1]) (by simp; omega), netTerm_chain σ (by simp [lS2]) (by simp; omega),
      netTerm_chain σ (by simp [lT]) (by simp; omega), pathProd_conj, pathProd_conj]
    simp only [List.map_cons, List.map_append, List.map_nil, List.cons_append, n1, n2, n3, n4, n5, n6, n7, n8, n9, n10, g1, g2, g3]
  have expand : ∀ (dA X Y : List ℕ) (f : List ℕ → ℂ), sumIdx (ds1 ++ (d :: (ds2 ++ (dA ++ (1 :: (X ++ (Y ++ inner))))))) f =
      sumIdx ds1 fun s1 => ∑ t ∈ range d, sumIdx ds2 fun s2 => sumIdx dA fun T' => ∑ β0 ∈ range 1, sumIdx X fun β1 => sumIdx Y fun β2 =>
        sumIdx inner fun γ => f (s1 ++ (t :: (s2 ++ (T' ++ (β0 :: (β1 ++ (β2 ++ γ))))))) := by
    intro dA X Y f
    simp only [sumIdx_append, sumIdx_cons]
  have hinner : ∀ s1 t s2 T', InB ds1 s1 → InB ds2 s2 → InB (ds1 ++ d :: ds2) T' →
      (∑ β0 ∈ range 1, sumIdx (As1.map (·.dim 2)) fun β1 => sumIdx (As2.map (·.dim 2)) fun β2 => sumIdx inner fun γ =>
        star (pathProd As1 s1 (β0 :: β1)) * (pr.val [i, j, t, endOf β0 β1] * (star (pathProd As2 s2 (c :: β2)) *
          (H.val ((s1 ++ t :: s2) ++ T') * pathProd As T' (β0 :: γ ++ [endOf c β2]))))) =
      ∑ b ∈ range p, star (amp As1 s1 0 b) * (pr.val [i, j, t, b] * (star (amp As2 s2 c 0) * (H.val ((s1 ++ t :: s2) ++ T') * psi As T'))) := by
    intro s1 t s2 T' k1 k2 k3
    rw [Finset.sum_range_one]
    have step : ∀ β1, (sumIdx (As2.map (·.dim 2)) fun β2 => sumIdx inner fun γ =>
        star (pathProd As1 s1 (0 :: β1)) * (pr.val [i, j, t, endOf 0 β1] * (star (pathProd As2 s2 (c :: β2)) *
          (H.val ((s1 ++ t :: s2) ++ T') * pathProd As T' (0 :: γ ++ [endOf c β2]))))) =
        star (pathProd As1 s1 (0 :: β1)) * (fun b => pr.val [i, j, t, b] * (star (amp As2 s2 c 0) * (H.val ((s1 ++ t :: s2) ++ T') * psi As T'))) (endOf 0 β1) := by
      intro β1
      simp only [sumIdx_mul_left]
      rw [path_end_star h2 k2.length_eq hc (fun e => H.val ((s1 ++ t :: s2) ++ T') * sumIdx inner fun γ => pathProd As T' (0 :: γ ++ [e])),
        Finset.sum_range_one]
      rfl
    rw [sumIdx_congr fun β1 _ => step β1]
    exact path_end_star h1 k1.length_eq (a := 0) (by omega)
      (fun b => pr.val [i, j, t, b] * (star (amp As2 s2 c 0) * (H.val ((s1 ++ t :: s2) ++ T') * psi As T')))
  rw [labelSum_eq_sumIdx, hmP, hPd, expand]
  rw [sumIdx_congr fun s1 k1 => Finset.sum_congr rfl fun t _ => sumIdx_congr fun s2 k2 => sumIdx_congr fun T' k3 => by
    rw [Finset.sum_congr rfl fun β0 _ => sumIdx_congr fun β1 k4 => sumIdx_congr fun β2 k5 => sumIdx_congr fun γ k6 =>
      hval s1 t s2 T' β0 β1 β2 γ k1 k2 k3 k4 k5 k6, hinner s1 t s2 T' k1 k2 k3]]
  rw [sumIdx_finset_sum]
  refine Finset.sum_congr rfl fun t _ => ?_
  simp only [sumIdx_finset_sum]
  refine Finset.sum_congr rfl fun b _ => ?_
  unfold envAmp
  rw [← sumIdx_mul_left]
  refine sumIdx_congr fun s1 _ => ?_
  rw [← sumIdx_mul_left]
  refine sumIdx_congr fun s2 _ => ?_
  rw [← sumIdx_mul_left, ← sumIdx_mul_left]
  exact sumIdx_congr fun T' _ => by ring

end Xmps
