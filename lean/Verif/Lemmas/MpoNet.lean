import Verif.Lemmas.ChainNet
import Verif.Spec.Mpo

/-! # Networks of matrix product operators -/

namespace Xmps

open Finset Xmps.Spec Xmps.Ncon

variable {K : Type}

/-- the label lists of an MPO with upper, lower and bond labels -/
def mpoL : List ℤ → List ℤ → List ℤ → List (List ℤ)
  | u :: us, d :: ds, a :: b :: bs => [u, b, d, a] :: mpoL us ds (b :: bs)
  | _, _, _ => []

/-- The sum over the inner bonds between given outer bond values, one tensor at a time. -/
def mpoAmp [CommSemiring K] : List (ND K) → List ℕ → List ℕ → ℕ → ℕ → K
  | W :: Ws, u :: us, d :: ds, a, b => ∑ c ∈ range (W.dim 1), W.val [u, c, d, a] * mpoAmp Ws us ds c b
  | _, _, _, a, b => if a = b then 1 else 0

theorem Spec.MpoChain.length_u : ∀ {us ds : List ℕ} {Ws : List (ND K)} {l r : ℕ}, MpoChain us ds Ws l r →
    us.length = Ws.length
  | [], [], [], _, _, _ => rfl
  | _ :: _, _ :: _, _ :: _, _, _, ⟨_, _, h⟩ => by simpa using h.length_u
  | [], _ :: _, _, _, _, h => by simp [MpoChain] at h
  | _ :: _, [], _, _, _, h => by simp [MpoChain] at h
  | [], [], _ :: _, _, _, h => by simp [MpoChain] at h
  | _ :: _, _ :: _, [], _, _, h => by simp [MpoChain] at h

theorem Spec.MpoChain.length_d : ∀ {us ds : List ℕ} {Ws : List (ND K)} {l r : ℕ}, MpoChain us ds Ws l r →
    ds.length = Ws.length
  | [], [], [], _, _, _ => rfl
  | _ :: _, _ :: _, _ :: _, _, _, ⟨_, _, h⟩ => by simpa using h.length_d
  | [], _ :: _, _, _, _, h => by simp [MpoChain] at h
  | _ :: _, [], _, _, _, h => by simp [MpoChain] at h
  | [], [], _ :: _, _, _, h => by simp [MpoChain] at h
  | _ :: _, _ :: _, [], _, _, h => by simp [MpoChain] at h

theorem mpoL_length : ∀ {us ds bs : List ℤ}, ds.length = us.length → bs.length = us.length + 1 →
    (mpoL us ds bs).length = us.length
  | [], [], _, _, _ => by simp [mpoL]
  | u :: us, d :: ds, a :: b :: bs, h, h' => by
    simp [mpoL, mpoL_length (us := us) (ds := ds) (bs := b :: bs) (by simpa using h) (by simpa using h')]
  | [], _ :: _, _, h, _ => by simp at h
  | _ :: _, [], _, h, _ => by simp at h
  | _ :: _, _ :: _, [], _, h => by simp at h
  | _ :: _, _ :: _, [_], _, h => by simp at h

theorem netTerm_mpo [CommSemiring K] (ρ : ℤ → ℕ) : ∀ {Ws : List (ND K)} {us ds bs : List ℤ}, Ws.length = us.length →
    ds.length = us.length → bs.length = us.length + 1 →
    netTerm Ws (mpoL us ds bs) ρ = mpoPath Ws (us.map ρ) (ds.map ρ) (bs.map ρ)
  | [], [], [], _, _, _, _ => by simp [netTerm, mpoPath]
  | W :: Ws, u :: us, d :: ds, a :: b :: bs, h, h', h'' => by
    have ih := netTerm_mpo ρ (Ws := Ws) (us := us) (ds := ds) (bs := b :: bs) (by simpa using h) (by simpa using h') (by simpa using h'')
    simp only [mpoL, netTerm, List.zipWith_cons_cons, List.prod_cons, List.map_cons, List.map_nil, mpoPath] at ih ⊢
    rw [ih]
  | [], _ :: _, _, _, h, _, _ => by simp at h
  | _ :: _, [], _, _, h, _, _ => by simp at h
  | [], [], _ :: _, _, _, h, _ => by simp at h
  | _ :: _, _ :: _, [], _, _, h, _ => by simp at h
  | _ :: _, _ :: _, _ :: _, [], _, _, h => by simp at h
  | _ :: _, _ :: _, _ :: _, [_], _, _, h => by simp at h

theorem mpoL_count (x : ℤ) : ∀ {us ds : List ℤ} {b0 : ℤ} {B : List ℤ} {bk : ℤ}, us.length = B.length + 1 →
    ds.length = B.length + 1 → (mpoL us ds (b0 :: B ++ [bk])).flatten.count x =
      us.count x + ds.count x + (b0 :: B).count x + (B ++ [bk]).count x
  | [u], [d], b0, [], bk, _, _ => by
    simp only [List.cons_append, List.nil_append, mpoL, List.flatten_cons, List.flatten_nil, List.append_nil,
      List.count_cons, List.count_nil]
    omega
  | u :: u' :: us, d :: d' :: ds, b0, b :: B, bk, h, h' => by
    have ih := mpoL_count x (us := u' :: us) (ds := d' :: ds) (b0 := b) (B := B) (bk := bk) (by simpa using h) (by simpa using h')
    simp only [List.cons_append, mpoL, List.flatten_cons, List.count_append, List.count_cons, List.count_nil] at ih ⊢
    omega
  | [], _, _, _, _, h, _ => by simp at h
  | _, [], _, _, _, _, h => by simp at h
  | [_], _, _, _ :: _, _, h, _ => by simp at h
  | _, [_], _, _ :: _, _, _, h => by simp at h
  | _ :: _ :: _, _, _, [], _, h, _ => by simp at h
  | _, _ :: _ :: _, _, [], _, _, h => by simp at h

theorem mpoL_shapes {dim : ℤ → ℕ} : ∀ {us ds : List ℕ} {Ws : List (ND K)} {l r : ℕ} {U D bs : List ℤ},
    MpoChain us ds Ws l r → U.map dim = us → D.map dim = ds → bs.map dim = l :: Ws.map (·.dim 1) →
    List.Forall₂ (fun (A : ND K) (l : List ℤ) => A.shape = l.map dim) Ws (mpoL U D bs)
  | [], [], [], l, r, U, D, bs, _, hU, hD, _ => by
    obtain rfl := List.map_eq_nil_iff.1 hU
    simp [mpoL]
  | u :: us, d :: ds, W :: Ws, l, r, U, D, bs, ⟨m, hW, h⟩, hU, hD, hb => by
    have hd : W.dim 1 = m := by simp [ND.dim, hW]
    match U, D, bs, hU, hD, hb with
    | u' :: U, d' :: D, a :: b :: bs, hU, hD, hb =>
      simp only [List.map_cons, List.cons.injEq, hd] at hU hD hb
      exact .cons (by simp [hW, hU.1, hD.1, hb.1, hb.2.1]) (mpoL_shapes h hU.2 hD.2 (by simp [hb.2.1, hb.2.2]))
  | [], _ :: _, _, _, _, _, _, _, h, _, _, _ => by simp [MpoChain] at h
  | _ :: _, [], _, _, _, _, _, _, h, _, _, _ => by simp [MpoChain] at h
  | [], [], _ :: _, _, _, _, _, _, h, _, _, _ => by simp [MpoChain] at h
  | _ :: _, _ :: _, [], _, _, _, _, _, h, _, _, _ => by simp [MpoChain] at h

theorem Spec.MpoChain.dims1_last : ∀ {us ds : List ℕ} {Ws : List (ND K)} {l r : ℕ}, MpoChain us ds Ws l r → Ws ≠ [] →
    Ws.map (·.dim 1) = (Ws.map (·.dim 1)).dropLast ++ [r]
  | [_], [_], [W], l, r, ⟨m, hW, h⟩, _ => by
    have : m = r := h
    simp [ND.dim, hW, this]
  | _ :: _, _ :: _, _ :: W' :: Ws, l, r, ⟨m, hW, h⟩, _ => by
    have ih := Spec.MpoChain.dims1_last h (by simp)
    simp only [List.map_cons, List.dropLast_cons_cons, List.cons_append] at ih ⊢
    rw [← ih]
  | [], [], [], _, _, _, h => absurd rfl h
  | [], _ :: _, _, _, _, h, _ => by simp [MpoChain] at h
  | _ :: _, [], _, _, _, h, _ => by simp [MpoChain] at h
  | [], [], _ :: _, _, _, h, _ => by simp [MpoChain] at h
  | _ :: _, _ :: _, [], _, _, h, _ => by simp [MpoChain] at h
  | [_], _ :: _ :: _, [_], _, _, ⟨_, _, h⟩, _ => by simp [MpoChain] at h
  | _ :: _ :: _, [_], [_], _, _, ⟨_, _, h⟩, _ => by simp [MpoChain] at h
  | _ :: _ :: _, _ :: _ :: _, [_], _, _, ⟨_, _, h⟩, _ => by simp [MpoChain] at h

theorem mpoAmp_flat [CommSemiring K] : ∀ {us ds : List ℕ} {Ws : List (ND K)} {u d : List ℕ} {l r : ℕ},
    MpoChain us ds Ws l r → Ws ≠ [] → u.length = us.length → d.length = ds.length → ∀ a b, b < r →
    mpoAmp Ws u d a b = sumIdx ((Ws.map (·.dim 1)).dropLast) fun bs => mpoPath Ws u d (a :: bs ++ [b])
  | [_], [_], [W], [u], [d], l, r, ⟨m, hW, h⟩, _, _, _, a, b, hb => by
    have : m = r := h
    subst this
    have hd : W.dim 1 = m := by simp [ND.dim, hW]
    simp [mpoPath, mpoAmp, hd, hb]
  | _ :: us, _ :: ds, W :: W' :: Ws, u :: uu, d :: dd, l, r, ⟨m, hW, h⟩, _, hu, hd, a, b, hb => by
    have ih := mpoAmp_flat (u := uu) (d := dd) h (by simp) (by simpa using hu) (by simpa using hd)
    simp only [List.map_cons, List.dropLast_cons_cons, sumIdx_cons]
    rw [mpoAmp]
    refine Finset.sum_congr rfl fun c _ => ?_
    rw [ih c b hb, ← sumIdx_mul_left]
    simp only [List.map_cons]
    refine sumIdx_congr fun idx _ => ?_
    simp [mpoPath]
  | [], [], [], _, _, _, _, _, h, _, _, _, _, _ => absurd rfl h
  | [], _ :: _, _, _, _, _, _, h, _, _, _, _, _, _ => by simp [MpoChain] at h
  | _ :: _, [], _, _, _, _, _, h, _, _, _, _, _, _ => by simp [MpoChain] at h
  | [], [], _ :: _, _, _, _, _, h, _, _, _, _, _, _ => by simp [MpoChain] at h
  | _ :: _, _ :: _, [], _, _, _, _, h, _, _, _, _, _, _ => by simp [MpoChain] at h
  | [_], _ :: _ :: _, [_], _, _, _, _, ⟨_, _, h⟩, _, _, _, _, _, _ => by simp [MpoChain] at h
  | _ :: _ :: _, [_], [_], _, _, _, _, ⟨_, _, h⟩, _, _, _, _, _, _ => by simp [MpoChain] at h
  | _ :: _ :: _, _ :: _ :: _, [_], _, _, _, _, ⟨_, _, h⟩, _, _, _, _, _, _ => by simp [MpoChain] at h
  | _ :: _, _, _, [], _, _, _, _, _, h, _, _, _, _ => by simp at h
  | _, _ :: _, _, _, [], _, _, _, _, _, h, _, _, _ => by simp at h
  | [_], _, _, _ :: _ :: _, _, _, _, _, _, h, _, _, _, _ => by simp at h
  | _, [_], _, _, _ :: _ :: _, _, _, _, _, _, h, _, _, _ => by simp at h

theorem opElem_eq [CommSemiring K] {us ds : List ℕ} {Ws : List (ND K)} {u d : List ℕ} {l : ℕ}
    (h : MpoChain us ds Ws l l) (hne : Ws ≠ []) (hu : u.length = us.length) (hd : d.length = ds.length) :
    opElem l Ws u d = ∑ a ∈ range l, mpoAmp Ws u d a a :=
  Finset.sum_congr rfl fun a ha => (mpoAmp_flat h hne hu hd a a (mem_range.1 ha)).symm

/-- A ring of rank 4 arrays with free upper and lower legs -/
theorem nc_mpo [CommSemiring K] (O : SetOrder) {us ds : List ℕ} {Ws : List (ND K)} {l : ℕ}
    (hW : MpoChain us ds Ws l l) (hne : Ws ≠ []) {U D B : List ℤ} {b0 : ℤ}
    (hnd : (b0 :: B).Nodup) (hpos : ∀ x ∈ b0 :: B, 0 < x)
    (hF : (U ++ D).Pairwise (· > ·)) (hneg : ∀ x ∈ U ++ D, x < 0)
    (lU : U.length = Ws.length) (lD : D.length = Ws.length) (l1 : Ws.length = B.length + 1) :
    ∃ R, nc O Ws (mpoL U D (b0 :: B ++ [b0])) = .ok R ∧
      R.shape = us ++ ds ∧ ∀ u d, InB us u → InB ds d → R.val (u ++ d) = opElem l Ws u d := by
  set inner := (Ws.map (·.dim 1)).dropLast with hin
  have hlen : Ws.length = inner.length + 1 := by
    have := congrArg List.length (hW.dims1_last hne)
    simpa [hin] using this
  have hus := hW.length_u
  have hds := hW.length_d
  set P := b0 :: B with hP
  have hndF : (U ++ D).Nodup := hF.imp (fun h => ne_of_gt h)
  have hndA : (U ++ (D ++ P)).Nodup := by
    rw [← List.append_assoc, List.nodup_append]
    refine ⟨hndF, hnd, fun x hx y hy e => ?_⟩
    have := hneg x hx
    have := hpos y hy
    omega
  set dim : ℤ → ℕ := assign (U ++ (D ++ P)) (us ++ (ds ++ (l :: inner))) with hdim
  have hmap : (U ++ (D ++ P)).map dim = us ++ (ds ++ (l :: inner)) :=
    map_assign _ _ hndA (by simp only [hP, List.length_append, List.length_cons]; omega)
  rw [hP] at hmap
  simp only [List.map_append] at hmap
  obtain ⟨hU, hmap⟩ := List.append_inj hmap (by simp; omega)
  obtain ⟨hD, hmap⟩ := List.append_inj hmap (by simp; omega)
  simp only [List.map_cons, List.cons.injEq] at hmap
  obtain ⟨hb, h1⟩ := hmap
  have hcount : ∀ x, (mpoL U D (b0 :: B ++ [b0])).flatten.count x = 2 * P.count x + (U ++ D).count x := by
    intro x
    rw [mpoL_count x (by omega) (by omega), hP]
    simp only [List.count_append, List.count_cons, List.count_nil]
    omega
  have hWL : WellLabelled Ws (mpoL U D (b0 :: B ++ [b0])) dim P (U ++ D) := by
    refine ⟨hne, ?_, hpos, hneg, hnd, hndF, fun x hx => ?_, fun x hx => ?_, fun x hx => ?_⟩
    · refine mpoL_shapes hW hU hD ?_
      rw [hW.dims1_last hne]
      simp [hb, h1, hin]
    · rw [hcount, List.count_eq_one_of_mem hnd hx, List.count_eq_zero_of_not_mem]
      intro h
      have := hneg x h
      have := hpos x hx
      omega
    · rw [hcount, List.count_eq_one_of_mem hndF hx, List.count_eq_zero_of_not_mem]
      intro h
      have := hneg x hx
      have := hpos x h
      omega
    · have := List.count_pos_iff.2 hx
      rw [hcount] at this
      rcases Nat.eq_zero_or_pos (P.count x) with e | e
      · exact .inr (List.count_pos_iff.1 (by omega))
      · exact .inl (List.count_pos_iff.1 e)
  obtain ⟨R, hR, hs, hv⟩ := nc_eval' O dim P (U ++ D) hWL hF
  refine ⟨R, hR, by rw [hs, List.map_append, hU, hD], fun s t hs ht => ?_⟩
  have hls : s.length = U.length := by rw [hs.length_eq]; omega
  have hlt : t.length = D.length := by rw [ht.length_eq]; omega
  rw [hv (s ++ t) (by simp [hls, hlt])]
  have hρ := map_assign (U ++ D) (s ++ t) hndF (by simp [hls, hlt])
  set ρ := assign (U ++ D) (s ++ t)
  rw [List.map_append] at hρ
  obtain ⟨hρS, hρT⟩ := List.append_inj hρ (by simp [hls])
  have hdis : ∀ x ∈ U ++ D, x ∉ P := by
    intro x hx h
    have := hneg x hx
    have := hpos x h
    omega
  obtain ⟨n0, nB⟩ := List.nodup_cons.1 hnd
  rw [labelSum_eq_sumIdx, hP, List.map_cons, hb, h1, sumIdx_cons, opElem]
  refine Finset.sum_congr rfl fun a ha => sumIdx_congr fun c hc => ?_
  have lc : (a :: c).length = (b0 :: B).length := by simp [hc.length_eq]; omega
  have m := map_updates ρ (b0 :: B) (a :: c) hnd lc
  set ρ5 := updates ρ (b0 :: B) (a :: c)
  simp only [List.map_cons, List.cons.injEq] at m
  have eF : ∀ x ∈ U ++ D, ρ5 x = ρ x := fun x hx => updates_of_not_mem _ _ _ (hdis x hx)
  have mS : U.map ρ5 = s := by
    rw [← hρS]
    exact List.map_congr_left fun x hx => eF x (by simp [hx])
  have mT : D.map ρ5 = t := by
    rw [← hρT]
    exact List.map_congr_left fun x hx => eF x (by simp [hx])
  rw [netTerm_mpo ρ5 (by omega) (by omega) (by simp; omega)]
  simp only [List.cons_append, List.map_cons, List.map_append, List.map_nil, mS, mT, m.1, m.2]

end Xmps
