import Verif.Lemmas.FmpsBasic
import Verif.Lemmas.Einsum

/-! # Networks containing a whole chain: labels `[s_n, b_n, b_{n+1}]` -/

namespace Xmps

open Finset Xmps.Spec Xmps.Ncon

variable {K : Type}

/-- the label lists of a chain with physical labels and bond labels -/
def chainL : List ℤ → List ℤ → List (List ℤ)
  | s :: ss, a :: b :: bs => [s, a, b] :: chainL ss (b :: bs)
  | _, _ => []

theorem chainL_length : ∀ {ss bs : List ℤ}, bs.length = ss.length + 1 → (chainL ss bs).length = ss.length
  | [], _, _ => by simp [chainL]
  | _ :: _, [], h => by simp at h
  | _ :: _, [_], h => by simp at h
  | s :: ss, a :: b :: bs, h => by simp [chainL, chainL_length (ss := ss) (bs := b :: bs) (by simpa using h)]

theorem chainL_map (s b : ℕ → ℤ) : ∀ (k a : ℕ),
    (List.range' a k).map (fun n => [s n, b n, b (n + 1)]) =
      chainL ((List.range' a k).map s) ((List.range' a (k + 1)).map b)
  | 0, a => by simp [chainL]
  | k + 1, a => by
    rw [List.range'_succ, List.map_cons, List.map_cons, chainL_map s b k (a + 1), List.range'_succ (n := k + 1),
      List.map_cons, List.range'_succ (n := k), List.map_cons]
    rfl

theorem netTerm_chain [CommSemiring K] (ρ : ℤ → ℕ) : ∀ {As : List (ND K)} {ss bs : List ℤ}, As.length = ss.length →
    bs.length = ss.length + 1 → netTerm As (chainL ss bs) ρ = pathProd As (ss.map ρ) (bs.map ρ)
  | [], [], _, _, _ => by simp [netTerm, pathProd]
  | A :: As, s :: ss, a :: b :: bs, h, h' => by
    have ih := netTerm_chain ρ (As := As) (ss := ss) (bs := b :: bs) (by simpa using h) (by simpa using h')
    simp only [chainL, netTerm, List.zipWith_cons_cons, List.prod_cons, List.map_cons, List.map_nil, pathProd] at ih ⊢
    rw [ih]
  | [], _ :: _, _, h, _ => by simp at h
  | _ :: _, [], _, h, _ => by simp at h
  | _ :: _, _ :: _, [], _, h => by simp at h
  | _ :: _, _ :: _, [_], _, h => by simp at h

theorem netTerm_append [CommMonoid K] (ρ : ℤ → ℕ) : ∀ {AA BB : List (ND K)} {v w : List (List ℤ)}, AA.length = v.length →
    netTerm (AA ++ BB) (v ++ w) ρ = netTerm AA v ρ * netTerm BB w ρ := by
  intro AA BB v w h
  unfold netTerm
  rw [List.zipWith_append h, List.prod_append]

theorem pathProd_conj [CommSemiring K] [StarRing K] : ∀ (As : List (ND K)) (ss bs : List ℕ),
    pathProd (As.map ND.conj) ss bs = star (pathProd As ss bs)
  | A :: As, s :: ss, a :: b :: bs => by
    simp only [List.map_cons, pathProd]
    rw [pathProd_conj As ss (b :: bs), star_mul', ND.conj]
  | [], _, _ => by simp [pathProd]
  | _ :: _, [], _ => by simp [pathProd]
  | _ :: _, _ :: _, [] => by simp [pathProd]
  | _ :: _, _ :: _, [_] => by simp [pathProd]

theorem chainL_count (x : ℤ) : ∀ {ss : List ℤ} {b0 : ℤ} {B : List ℤ} {bk : ℤ}, ss.length = B.length + 1 →
    (chainL ss (b0 :: B ++ [bk])).flatten.count x =
      ss.count x + (b0 :: B).count x + (B ++ [bk]).count x
  | [s], b0, [], bk, _ => by
    simp only [List.cons_append, List.nil_append, chainL, List.flatten_cons, List.flatten_nil, List.append_nil,
      List.count_cons, List.count_nil]
    omega
  | s :: s' :: ss, b0, b :: B, bk, h => by
    have ih := chainL_count x (ss := s' :: ss) (b0 := b) (B := B) (bk := bk) (by simpa using h)
    simp only [List.cons_append, chainL, List.flatten_cons, List.count_append, List.count_cons, List.count_nil] at ih ⊢
    omega
  | [], _, _, _, h => by simp at h
  | [_], _, _ :: _, _, h => by simp at h
  | _ :: _ :: _, _, [], _, h => by simp at h

theorem chainL_shapes {dim : ℤ → ℕ} : ∀ {ds : List ℕ} {As : List (ND K)} {l r : ℕ} {ss bs : List ℤ},
    MpsChain ds As l r → ss.map dim = ds → bs.map dim = l :: As.map (·.dim 2) →
    List.Forall₂ (fun (A : ND K) (l : List ℤ) => A.shape = l.map dim) As (chainL ss bs)
  | [], [], l, r, [], bs, _, _, _ => by simp [chainL]
  | d :: ds, A :: As, l, r, s :: ss, a :: b :: bs, h, h1, h2 => by
    obtain ⟨m, hA, h⟩ := h
    simp only [List.map_cons, List.cons.injEq] at h1 h2
    refine .cons ?_ (chainL_shapes h h1.2 ?_)
    · simp [hA, h1.1, h2.1, h2.2.1, dim2 hA]
    · simp [h2.2.1, h2.2.2, dim2 hA]
  | [], _ :: _, _, _, _, _, h, _, _ => by simp at h
  | _ :: _, [], _, _, _, _, h, _, _ => by simp at h
  | [], [], _, _, _ :: _, _, _, h, _ => by simp at h
  | _ :: _, _ :: _, _, _, [], _, _, h, _ => by simp at h
  | _ :: _, _ :: _, _, _, _ :: _, [], _, _, h => by simp at h
  | _ :: _, _ :: _, _, _, _ :: _, [_], _, _, h => by simp at h

theorem mpsChain_conj [Star K] : ∀ {ds : List ℕ} {As : List (ND K)} {l r : ℕ}, MpsChain ds As l r →
    MpsChain ds (As.map ND.conj) l r
  | [], [], _, _, h => h
  | _ :: _, _ :: _, _, _, ⟨m, hA, h⟩ => ⟨m, hA, mpsChain_conj h⟩
  | [], _ :: _, _, _, h => by simp at h
  | _ :: _, [], _, _, h => by simp at h

theorem dims2_conj [Star K] (As : List (ND K)) : (As.map ND.conj).map (·.dim 2) = As.map (·.dim 2) := by
  simp [Function.comp_def, ND.conj, ND.dim]

theorem Spec.MpsChain.dims2_last : ∀ {ds : List ℕ} {As : List (ND K)} {l r : ℕ}, MpsChain ds As l r → As ≠ [] →
    As.map (·.dim 2) = (As.map (·.dim 2)).dropLast ++ [r]
  | [d], [A], l, r, ⟨m, hA, h⟩, _ => by
    have : m = r := h
    simp [dim2 hA, this]
  | _ :: _ :: _, A :: B :: As, l, r, ⟨m, hA, h⟩, _ => by
    have ih := Spec.MpsChain.dims2_last h (by simp)
    simp only [List.map_cons, List.dropLast_cons_cons, List.cons_append] at ih ⊢
    rw [← ih]
  | [], [], _, _, _, h => absurd rfl h
  | [], _ :: _, _, _, h, _ => by simp at h
  | _ :: _, [], _, _, h, _ => by simp at h
  | [_], _ :: _ :: _, _, _, ⟨_, _, h⟩, _ => by simp at h
  | _ :: _ :: _, [_], _, _, ⟨_, _, h⟩, _ => by simp at h

/-- the amplitude between two outer bond values is the sum over the inner bonds -/
theorem amp_flat [CommSemiring K] : ∀ {ds : List ℕ} {As : List (ND K)} {ss : List ℕ} {l r : ℕ},
    MpsChain ds As l r → As ≠ [] → ss.length = ds.length → ∀ a b, b < r →
    amp As ss a b = sumIdx ((As.map (·.dim 2)).dropLast) fun bs => pathProd As ss (a :: bs ++ [b])
  | [d], [A], [s], l, r, h, _, _, a, b, hb => by
    obtain ⟨m, hA, h⟩ := h
    have : m = r := h
    subst this
    rw [amp_single _ _ _ _ (by simpa [ND.dim, hA] using hb)]
    simp [pathProd]
  | d :: d' :: ds, A :: A' :: As, s :: s' :: ss, l, r, h, _, hl, a, b, hb => by
    obtain ⟨m, hA, h⟩ := h
    have hd : A.dim 2 = m := by simp [ND.dim, hA]
    have ih := amp_flat h (by simp) (ss := s' :: ss) (by simpa using hl)
    rw [amp_cons]
    simp only [List.map_cons, List.dropLast_cons_cons, sumIdx_cons]
    refine Finset.sum_congr rfl fun c _ => ?_
    rw [ih c b hb, ← sumIdx_mul_left]
    simp only [List.map_cons]
    refine sumIdx_congr fun idx _ => ?_
    simp [pathProd]
  | [], [], _, _, _, _, hne, _, _, _, _ => absurd rfl hne
  | [], _ :: _, _, _, _, h, _, _, _, _, _ => by simp at h
  | _ :: _, [], _, _, _, _, hne, _, _, _, _ => absurd rfl hne
  | _ :: _, _ :: _, [], _, _, _, _, h, _, _, _ => by simp at h
  | [_], _ :: _ :: _, _, _, _, h, _, _, _, _, _ => by obtain ⟨_, _, h⟩ := h; simp at h
  | _ :: _ :: _, [_], _, _, _, h, _, _, _, _, _ => by obtain ⟨_, _, h⟩ := h; simp at h
  | [_], [_], _ :: _ :: _, _, _, _, _, h, _, _, _ => by simp at h
  | _ :: _ :: _, _ :: _ :: _, [_], _, _, _, _, h, _, _, _ => by simp at h

/-- two labelled chains with common ends, the middle network given by `G` -/
theorem labelSum_sandwich [CommSemiring K] [StarRing K] {ds : List ℕ} {As : List (ND K)} {m n : ℕ}
    (hA : MpsChain ds As m n) (hne : As ≠ []) {S T B1 B2 : List ℤ} {b0 bk : ℤ} {dim : ℤ → ℕ}
    (hnd : (S ++ (T ++ ([b0, bk] ++ (B1 ++ B2)))).Nodup) (hS : S.map dim = ds) (hT : T.map dim = ds)
    (h0 : dim b0 = m) (hk : dim bk = n) (h1 : B1.map dim = (As.map (·.dim 2)).dropLast)
    (h2 : B2.map dim = (As.map (·.dim 2)).dropLast) (G : List ℕ → List ℕ → K) (ρ : ℤ → ℕ) :
    labelSum (S ++ (T ++ ([b0, bk] ++ (B1 ++ B2)))) dim (fun ρ =>
      star (pathProd As (S.map ρ) ((b0 :: B1 ++ [bk]).map ρ)) *
        (G (S.map ρ) (T.map ρ) * pathProd As (T.map ρ) ((b0 :: B2 ++ [bk]).map ρ))) ρ =
    sumIdx ds fun s => sumIdx ds fun t => ∑ a ∈ range m, ∑ b ∈ range n,
      star (amp As s a b) * (G s t * amp As t a b) := by
  have hl := hA.length_eq
  simp only [List.nodup_append, List.nodup_cons, List.mem_append, List.mem_cons, List.not_mem_nil, or_false,
    List.nodup_nil] at hnd
  obtain ⟨nS, ⟨nT, ⟨⟨n0, _⟩, ⟨nB1, nB2, dB⟩, dE⟩, dT⟩, dS⟩ := hnd
  rw [labelSum_append, labelSum_eq_sumIdx, hS]
  refine sumIdx_congr fun s hs => ?_
  rw [labelSum_append, labelSum_eq_sumIdx, hT]
  refine sumIdx_congr fun t ht => ?_
  rw [labelSum_append, labelSum_eq_sumIdx]
  simp only [List.map_cons, List.map_nil, h0, hk, sumIdx_cons, sumIdx_nil]
  refine Finset.sum_congr rfl fun a ha => Finset.sum_congr rfl fun b hb => ?_
  rw [labelSum_append, labelSum_eq_sumIdx, h1, amp_flat hA hne hs.length_eq a b (mem_range.1 hb),
    amp_flat hA hne ht.length_eq a b (mem_range.1 hb), sumIdx_star, ← sumIdx_mul_right]
  refine sumIdx_congr fun c hc => ?_
  rw [labelSum_eq_sumIdx, h2, ← sumIdx_mul_left, ← sumIdx_mul_left]
  refine sumIdx_congr fun e he => ?_
  have lS : s.length = S.length := by rw [hs.length_eq, ← hS]; simp
  have lT : t.length = T.length := by rw [ht.length_eq, ← hT]; simp
  have l1 : c.length = B1.length := by rw [hc.length_eq, ← h1]; simp
  have l2 : e.length = B2.length := by rw [he.length_eq, ← h2]; simp
  set ρ1 := updates ρ S s with hρ1
  set ρ2 := updates ρ1 T t with hρ2
  set ρ3 := updates ρ2 [b0, bk] [a, b] with hρ3
  set ρ4 := updates ρ3 B1 c with hρ4
  set ρ5 := updates ρ4 B2 e with hρ5
  have e5 : ∀ x, x ∉ B2 → ρ5 x = ρ4 x := fun x h => updates_of_not_mem _ _ _ h
  have e4 : ∀ x, x ∉ B1 → ρ4 x = ρ3 x := fun x h => updates_of_not_mem _ _ _ h
  have e3 : ∀ x, x ≠ b0 → x ≠ bk → ρ3 x = ρ2 x := fun x h h' => updates_of_not_mem _ _ _ (by simp [h, h'])
  have e2 : ∀ x, x ∉ T → ρ2 x = ρ1 x := fun x h => updates_of_not_mem _ _ _ h
  have mS : S.map ρ5 = s := by
    rw [← map_updates ρ S s nS lS]
    refine List.map_congr_left fun x hx => ?_
    have q := fun b hb => dS x hx b hb
    rw [e5 x (fun h => q x (by simp [h]) rfl), e4 x (fun h => q x (by simp [h]) rfl),
      e3 x (q b0 (by simp)) (q bk (by simp)), e2 x (fun h => q x (by simp [h]) rfl)]
  have mT : T.map ρ5 = t := by
    rw [← map_updates ρ1 T t nT lT]
    refine List.map_congr_left fun x hx => ?_
    have q := fun b hb => dT x hx b hb
    rw [e5 x (fun h => q x (by simp [h]) rfl), e4 x (fun h => q x (by simp [h]) rfl),
      e3 x (q b0 (by simp)) (q bk (by simp))]
  have m0 : ρ5 b0 = a := by
    rw [e5 b0 (fun h => dE b0 (by simp) b0 (by simp [h]) rfl), e4 b0 (fun h => dE b0 (by simp) b0 (by simp [h]) rfl)]
    simp [hρ3, updates, Function.update, n0]
  have mk : ρ5 bk = b := by
    rw [e5 bk (fun h => dE bk (by simp) bk (by simp [h]) rfl), e4 bk (fun h => dE bk (by simp) bk (by simp [h]) rfl)]
    simp [hρ3, updates, Function.update]
  have m1 : B1.map ρ5 = c := by
    rw [← map_updates ρ3 B1 c nB1 l1]
    refine List.map_congr_left fun x hx => ?_
    rw [e5 x (fun h => dB x hx x h rfl)]
  have m2 : B2.map ρ5 = e := map_updates ρ4 B2 e nB2 l2
  simp only [List.cons_append, List.map_cons, List.map_append, List.map_nil, mS, mT, m0, mk, m1, m2]

theorem exists_sorted {P : List ℤ} (h : P.Nodup) : ∃ Q : List ℤ, Q.Perm P ∧ Q.Pairwise (· < ·) := by
  refine ⟨P.mergeSort (fun a b => decide (a ≤ b)), List.mergeSort_perm _ _, ?_⟩
  have h1 := List.pairwise_mergeSort (le := fun a b : ℤ => decide (a ≤ b))
    (by intro a b c h1 h2; simp only [decide_eq_true_eq] at *; omega)
    (by intro a b; simp only [Bool.or_eq_true, decide_eq_true_eq]; omega) P
  have h2 : (P.mergeSort (fun a b => decide (a ≤ b))).Nodup := (List.mergeSort_perm _ _).nodup_iff.2 h
  exact h1.imp₂ (fun a b h h' => lt_of_le_of_ne (by simpa using h) h') h2

theorem WellLabelled_perm {AA : List (ND K)} {v : List (List ℤ)} {dim : ℤ → ℕ} {P Q F : List ℤ}
    (h : WellLabelled AA v dim P F) (hP : Q.Perm P) : WellLabelled AA v dim Q F :=
  ⟨h.nonempty, h.shapes, fun x hx => h.posP x (hP.mem_iff.1 hx), h.negF, hP.nodup_iff.2 h.nodupP, h.nodupF,
    fun x hx => h.twice x (hP.mem_iff.1 hx), h.once, fun x hx => (h.only x hx).imp hP.mem_iff.2 id⟩

/-- `nc_eval` with the contracted labels listed in any order. -/
theorem nc_eval' [CommSemiring K] (O : SetOrder) {AA : List (ND K)} {v : List (List ℤ)} (dim : ℤ → ℕ)
    (P F : List ℤ) (h : WellLabelled AA v dim P F) (hF : F.Pairwise (· > ·)) :
    ∃ R, nc O AA v = .ok R ∧ R.shape = F.map dim ∧
      ∀ idx, idx.length = F.length → R.val idx = labelSum P dim (netTerm AA v) (assign F idx) := by
  obtain ⟨Q, hQ, hs⟩ := exists_sorted h.nodupP
  obtain ⟨R, hR, hsh, hv⟩ := nc_eval O dim Q F (WellLabelled_perm h hQ) hs hF
  exact ⟨R, hR, hsh, fun idx hi => by rw [hv idx hi, labelSum_perm hQ (hQ.nodup_iff.2 h.nodupP)]⟩

theorem Spec.MpsChain.ds_ne {ds : List ℕ} {As : List (ND K)} {l r : ℕ} (h : MpsChain ds As l r) (hne : As ≠ []) :
    As.length = (As.map (·.dim 2)).dropLast.length + 1 := by
  have : As.length ≠ 0 := fun e => hne (List.length_eq_zero_iff.1 e)
  simp
  omega

/-- `⟨chain| network |chain⟩` with the outer bonds of the two copies joined -/
theorem nc_sandwich [CommSemiring K] [StarRing K] (O : SetOrder) {ds : List ℕ} {As : List (ND K)} {m n : ℕ}
    (hA : MpsChain ds As m n) (hne : As ≠ []) {S T B1 B2 : List ℤ} {b0 bk : ℤ}
    (hnd : (S ++ (T ++ ([b0, bk] ++ (B1 ++ B2)))).Nodup) (hpos : ∀ x ∈ S ++ (T ++ ([b0, bk] ++ (B1 ++ B2))), 0 < x)
    (lS : S.length = As.length) (lT : T.length = As.length) (l1 : As.length = B1.length + 1)
    (l2 : As.length = B2.length + 1) {MM : List (ND K)} {w : List (List ℤ)} {G : List ℕ → List ℕ → K}
    (hM : ∀ dim : ℤ → ℕ, S.map dim = ds → T.map dim = ds →
      List.Forall₂ (fun (A : ND K) (l : List ℤ) => A.shape = l.map dim) MM w)
    (hw : ∀ x, w.flatten.count x = S.count x + T.count x)
    (hG : ∀ ρ, netTerm MM w ρ = G (S.map ρ) (T.map ρ)) :
    ∃ R, nc O (As.map ND.conj ++ MM ++ As)
        (chainL S (b0 :: B1 ++ [bk]) ++ w ++ chainL T (b0 :: B2 ++ [bk])) = .ok R ∧ R.shape = [] ∧
      R.val [] = sumIdx ds fun s => sumIdx ds fun t => ∑ a ∈ range m, ∑ b ∈ range n,
        star (amp As s a b) * (G s t * amp As t a b) := by
  set inner := (As.map (·.dim 2)).dropLast with hin
  have hlen : As.length = inner.length + 1 := hA.ds_ne hne
  have hds := hA.length_eq
  set P := S ++ (T ++ ([b0, bk] ++ (B1 ++ B2))) with hP
  set dim : ℤ → ℕ := assign P (ds ++ (ds ++ ([m, n] ++ (inner ++ inner)))) with hdim
  have hmap : P.map dim = ds ++ (ds ++ ([m, n] ++ (inner ++ inner))) :=
    map_assign _ _ hnd (by simp only [hP, List.length_append, List.length_cons, List.length_nil]; omega)
  rw [hP] at hmap
  simp only [List.map_append] at hmap
  obtain ⟨hS, hmap⟩ := List.append_inj hmap (by simp; omega)
  obtain ⟨hT, hmap⟩ := List.append_inj hmap (by simp; omega)
  obtain ⟨hb, hmap⟩ := List.append_inj hmap (by simp)
  obtain ⟨h1, h2⟩ := List.append_inj hmap (by simp only [List.length_map]; omega)
  simp only [List.map_cons, List.map_nil, List.cons.injEq, and_true] at hb
  have hcount : ∀ x, (chainL S (b0 :: B1 ++ [bk]) ++ w ++ chainL T (b0 :: B2 ++ [bk])).flatten.count x =
      2 * P.count x := by
    intro x
    rw [List.flatten_append, List.flatten_append, List.count_append, List.count_append,
      chainL_count x (by omega), chainL_count x (by omega), hw x, hP]
    simp only [List.count_append, List.count_cons, List.count_nil]
    omega
  have hWL : WellLabelled (As.map ND.conj ++ MM ++ As)
      (chainL S (b0 :: B1 ++ [bk]) ++ w ++ chainL T (b0 :: B2 ++ [bk])) dim P [] := by
    refine ⟨by simp [hne], ?_, hpos, by simp, hnd, by simp, fun x hx => ?_, by simp, fun x hx => ?_⟩
    · refine List.rel_append (List.rel_append (chainL_shapes (mpsChain_conj hA) hS ?_) (hM dim hS hT))
        (chainL_shapes hA hT ?_)
      · rw [dims2_conj, hA.dims2_last hne]
        simp [hb.1, hb.2, h1, hin]
      · rw [hA.dims2_last hne]
        simp [hb.1, hb.2, h2, hin]
    · rw [hcount, List.count_eq_one_of_mem hnd hx]
    · left
      have := List.count_pos_iff.2 hx
      rw [hcount] at this
      exact List.count_pos_iff.1 (by omega)
  obtain ⟨R, hR, hs, hv⟩ := nc_eval' O dim P [] hWL (by simp)
  refine ⟨R, hR, hs, ?_⟩
  rw [hv [] rfl, ← labelSum_sandwich hA hne hnd hS hT hb.1 hb.2 h1 h2 G (assign [] [])]
  refine labelSum_congr _ _ (fun ρ => ?_) _
  have c1 : (chainL S (b0 :: B1 ++ [bk])).length = S.length := chainL_length (by simp; omega)
  have hMM : MM.length = w.length := (hM dim hS hT).length_eq
  rw [netTerm_append ρ (by rw [List.length_append, List.length_append, List.length_map, c1, lS, hMM]), netTerm_append ρ (by rw [List.length_map, c1, lS]), hG,
    netTerm_chain ρ (by simp [lS]) (by simp; omega), netTerm_chain ρ (by simp [lT]) (by simp; omega), pathProd_conj,
    mul_assoc]

/-- `|chain⟩⟨chain|` with the outer bonds of the two copies joined and free physical legs -/
theorem nc_outer [CommSemiring K] [StarRing K] (O : SetOrder) {ds : List ℕ} {As : List (ND K)} {m n : ℕ}
    (hA : MpsChain ds As m n) (hne : As ≠ []) {S T B1 B2 : List ℤ} {b0 bk : ℤ}
    (hnd : ([b0, bk] ++ (B1 ++ B2)).Nodup) (hpos : ∀ x ∈ [b0, bk] ++ (B1 ++ B2), 0 < x)
    (hF : (S ++ T).Pairwise (· > ·)) (hneg : ∀ x ∈ S ++ T, x < 0)
    (lS : S.length = As.length) (lT : T.length = As.length) (l1 : As.length = B1.length + 1)
    (l2 : As.length = B2.length + 1) :
    ∃ R, nc O (As ++ As.map ND.conj) (chainL S (b0 :: B1 ++ [bk]) ++ chainL T (b0 :: B2 ++ [bk])) = .ok R ∧
      R.shape = ds ++ ds ∧ ∀ s t, InB ds s → InB ds t →
      R.val (s ++ t) = ∑ a ∈ range m, ∑ b ∈ range n, amp As s a b * star (amp As t a b) := by
  set inner := (As.map (·.dim 2)).dropLast with hin
  have hlen : As.length = inner.length + 1 := hA.ds_ne hne
  have hds := hA.length_eq
  set P := [b0, bk] ++ (B1 ++ B2) with hP
  have hndF : (S ++ T).Nodup := hF.imp (fun h => ne_of_gt h)
  have hndA : (S ++ (T ++ P)).Nodup := by
    rw [← List.append_assoc, List.nodup_append]
    refine ⟨hndF, hnd, fun x hx y hy e => ?_⟩
    have := hneg x hx
    have := hpos y hy
    omega
  set dim : ℤ → ℕ := assign (S ++ (T ++ P)) (ds ++ (ds ++ ([m, n] ++ (inner ++ inner)))) with hdim
  have hmap : (S ++ (T ++ P)).map dim = ds ++ (ds ++ ([m, n] ++ (inner ++ inner))) :=
    map_assign _ _ hndA (by simp only [hP, List.length_append, List.length_cons, List.length_nil]; omega)
  rw [hP] at hmap
  simp only [List.map_append] at hmap
  obtain ⟨hS, hmap⟩ := List.append_inj hmap (by simp; omega)
  obtain ⟨hT, hmap⟩ := List.append_inj hmap (by simp; omega)
  obtain ⟨hb, hmap⟩ := List.append_inj hmap (by simp)
  obtain ⟨h1, h2⟩ := List.append_inj hmap (by simp only [List.length_map]; omega)
  simp only [List.map_cons, List.map_nil, List.cons.injEq, and_true] at hb
  have hcount : ∀ x, (chainL S (b0 :: B1 ++ [bk]) ++ chainL T (b0 :: B2 ++ [bk])).flatten.count x =
      2 * P.count x + (S ++ T).count x := by
    intro x
    rw [List.flatten_append, List.count_append,
      chainL_count x (by omega), chainL_count x (by omega), hP]
    simp only [List.count_append, List.count_cons, List.count_nil]
    omega
  have hWL : WellLabelled (As ++ As.map ND.conj)
      (chainL S (b0 :: B1 ++ [bk]) ++ chainL T (b0 :: B2 ++ [bk])) dim P (S ++ T) := by
    refine ⟨by simp [hne], ?_, hpos, hneg, hnd, hndF, fun x hx => ?_, fun x hx => ?_, fun x hx => ?_⟩
    · refine List.rel_append (chainL_shapes hA hS ?_) (chainL_shapes (mpsChain_conj hA) hT ?_)
      · rw [hA.dims2_last hne]
        simp [hb.1, hb.2, h1, hin]
      · rw [dims2_conj, hA.dims2_last hne]
        simp [hb.1, hb.2, h2, hin]
    · rw [hcount, List.count_eq_one_of_mem hnd hx, List.count_eq_zero_of_not_mem]
      intro h
      have := hneg x h
      have := hpos x hx
      omega
    · rw [hcount, List.count_eq_one_of_mem hndF hx, List.count_eq_zero_of_not_mem]
      intro h
      have := hneg x hx
      have := hpos x h
      omega
    · have := List.count_pos_iff.2 hx
      rw [hcount] at this
      rcases Nat.eq_zero_or_pos (P.count x) with e | e
      · exact .inr (List.count_pos_iff.1 (by omega))
      · exact .inl (List.count_pos_iff.1 e)
  obtain ⟨R, hR, hs, hv⟩ := nc_eval' O dim P (S ++ T) hWL hF
  refine ⟨R, hR, by rw [hs, List.map_append, hS, hT], fun s t hs ht => ?_⟩
  have hls : s.length = S.length := by rw [hs.length_eq]; omega
  have hlt : t.length = T.length := by rw [ht.length_eq]; omega
  rw [hv (s ++ t) (by simp [hls, hlt])]
  have hρ := map_assign (S ++ T) (s ++ t) hndF (by simp [hls, hlt])
  set ρ := assign (S ++ T) (s ++ t)
  rw [List.map_append] at hρ
  obtain ⟨hρS, hρT⟩ := List.append_inj hρ (by simp [hls])
  have hdis : ∀ x ∈ S ++ T, x ∉ P := by
    intro x hx h
    have := hneg x hx
    have := hpos x h
    omega
  have hnd' := hnd
  rw [hP] at hnd'
  simp only [List.nodup_append, List.nodup_cons, List.mem_append, List.mem_cons, List.not_mem_nil, or_false,
    List.nodup_nil] at hnd'
  obtain ⟨⟨n0, _⟩, ⟨nB1, nB2, dB⟩, dE⟩ := hnd'
  rw [hP, labelSum_append, labelSum_eq_sumIdx]
  simp only [List.map_cons, List.map_nil, hb.1, hb.2, sumIdx_cons, sumIdx_nil]
  refine Finset.sum_congr rfl fun a ha => Finset.sum_congr rfl fun b hbn => ?_
  rw [labelSum_append, labelSum_eq_sumIdx, h1, amp_flat hA hne hs.length_eq a b (mem_range.1 hbn),
    amp_flat hA hne ht.length_eq a b (mem_range.1 hbn), sumIdx_star, ← sumIdx_mul_right]
  refine sumIdx_congr fun c hc => ?_
  rw [labelSum_eq_sumIdx, h2, ← sumIdx_mul_left]
  refine sumIdx_congr fun e he => ?_
  have l1' : c.length = B1.length := by rw [hc.length_eq]; omega
  have l2' : e.length = B2.length := by rw [he.length_eq]; omega
  set ρ3 := updates ρ [b0, bk] [a, b] with hρ3
  set ρ4 := updates ρ3 B1 c with hρ4
  set ρ5 := updates ρ4 B2 e with hρ5
  have e5 : ∀ x, x ∉ B2 → ρ5 x = ρ4 x := fun x h => updates_of_not_mem _ _ _ h
  have e4 : ∀ x, x ∉ B1 → ρ4 x = ρ3 x := fun x h => updates_of_not_mem _ _ _ h
  have e3 : ∀ x, x ∉ [b0, bk] → ρ3 x = ρ x := fun x h => updates_of_not_mem _ _ _ h
  have eF : ∀ x ∈ S ++ T, ρ5 x = ρ x := by
    intro x hx
    have := hdis x hx
    rw [hP] at this
    simp only [List.mem_append, not_or] at this
    rw [e5 x this.2.2, e4 x this.2.1, e3 x this.1]
  have mS : S.map ρ5 = s := by
    rw [← hρS]
    exact List.map_congr_left fun x hx => eF x (by simp [hx])
  have mT : T.map ρ5 = t := by
    rw [← hρT]
    exact List.map_congr_left fun x hx => eF x (by simp [hx])
  have m0 : ρ5 b0 = a := by
    rw [e5 b0 (fun h => dE b0 (by simp) b0 (by simp [h]) rfl), e4 b0 (fun h => dE b0 (by simp) b0 (by simp [h]) rfl)]
    simp [hρ3, updates, Function.update, n0]
  have mk : ρ5 bk = b := by
    rw [e5 bk (fun h => dE bk (by simp) bk (by simp [h]) rfl), e4 bk (fun h => dE bk (by simp) bk (by simp [h]) rfl)]
    simp [hρ3, updates, Function.update]
  have m1 : B1.map ρ5 = c := by
    rw [← map_updates ρ3 B1 c nB1 l1']
    refine List.map_congr_left fun x hx => ?_
    rw [e5 x (fun h => dB x hx x h rfl)]
  have m2 : B2.map ρ5 = e := map_updates ρ4 B2 e nB2 l2'
  have c1 : (chainL S (b0 :: B1 ++ [bk])).length = S.length := chainL_length (by simp; omega)
  rw [netTerm_append ρ5 (by rw [c1, lS]), netTerm_chain ρ5 (by simp [lS]) (by simp; omega),
    netTerm_chain ρ5 (by simp [lT]) (by simp; omega), pathProd_conj]
  simp only [List.cons_append, List.map_cons, List.map_append, List.map_nil, mS, mT, m0, mk, m1, m2]

end Xmps
