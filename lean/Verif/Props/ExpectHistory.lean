import Verif.Props.Canonicalise
import Verif.Props.ExpectMore
import Verif.Props.FmpsOverlap

/-!
# C24: expectation values and the call history

`Call`: the methods that change or may change the receiver without replacing the state it holds.  For
every finite sequence of such calls on a freshly constructed object the next `E`, `E_k`, `rho` uses the
state the object holds.  `post_select` breaks this: it changes the tensors and leaves the flags.
-/

namespace Xmps

open Finset Xmps.Spec Xmps.Ncon

theorem FMPS.leftOrthogonalise_honest {qr : ND ℂ → Py (ND ℂ × ND ℂ)} (hqr : QRLaw qr) {x : FMPS ℂ} {ds : List ℕ}
    (hx : x.Holds ds) (hp : PosDims x.data) (hnz : ∃ s, InB ds s ∧ psi x.data s ≠ 0) :
    ∃ y, x.leftOrthogonalise qr = .ok y ∧ y.Honest ds ∧ SameRay ds x.data y.data := by
  obtain ⟨y, R, hy, h1, h2, -, -, -, h3, -, -, h4⟩ := FMPS.leftOrthogonalise_spec hqr hx hp
  have hR : R.val [0, 0] ≠ 0 := by
    obtain ⟨s, hs, hne⟩ := hnz
    exact fun e => hne (by rw [h3 s hs, e, mul_zero])
  have hray : SameRay ds x.data y.data := ⟨_, hR, fun s hs => by rw [h3 s hs, mul_comm]⟩
  refine ⟨y, hy, ⟨h1, h2, hray.nonzero hnz, fun c hc hlt => ?_, by simp [h4]⟩, hray⟩
  rw [h4] at hc
  cases hc
  omega

theorem FMPS.rightOrthogonalise_honest {rq : ND ℂ → Py (ND ℂ × ND ℂ)} (hrq : RQLaw rq) {x : FMPS ℂ} {ds : List ℕ}
    (hx : x.Holds ds) (hp : PosDims x.data) (hnz : ∃ s, InB ds s ∧ psi x.data s ≠ 0) :
    ∃ y, x.rightOrthogonalise rq = .ok y ∧ y.Honest ds ∧ SameRay ds x.data y.data := by
  obtain ⟨y, R, hy, h1, h2, hiso, -, -, h3, hb, -, h4⟩ := FMPS.rightOrthogonalise_spec hrq hx hp
  have hR : R.val [0, 0] ≠ 0 := by
    obtain ⟨s, hs, hne⟩ := hnz
    exact fun e => hne (by rw [h3 s hs, e, zero_mul])
  have hray : SameRay ds x.data y.data := ⟨_, hR, h3⟩
  refine ⟨y, hy, ⟨h1, h2, hray.nonzero hnz, fun c hc hlt => ?_, by simp [h4]⟩, hray⟩
  rw [h4] at hc
  cases hc
  exact ⟨⟨by rw [h1.chain.length_eq]; exact hlt, by simp, fun A hA => hiso A (List.mem_of_mem_drop hA)⟩, hb⟩

theorem replicate_headI {L d t : ℕ} (h : t ∈ List.replicate L d) : t = (List.replicate L d).headI := by
  obtain ⟨h0, rfl⟩ := List.mem_replicate.1 h
  obtain ⟨k, rfl⟩ := Nat.exists_eq_succ_of_ne_zero h0
  rfl

theorem FMPS.leftCanonicalise_honest {svd : Svd} {eig : Eig} (hsvd : SVDLaw svd) (heig : EigOrthoLaw eig) {x : FMPS ℂ}
    {ds : List ℕ} (hx : x.Holds ds) (hu : ∀ t ∈ ds, t = x.d) (hp : PosDims x.data)
    (hnz : ∃ s, InB ds s ∧ psi x.data s ≠ 0) :
    ∃ y, (x.leftCanonicalise svd eig).map Prod.fst = .ok y ∧ y.Honest ds ∧ SameRay ds x.data y.data := by
  obtain ⟨y, Ls, R, z, h1, h2, h3, -, -, -, -, -, -, -, h4, -, -, -, -, h5⟩ :=
    FMPS.leftCanonicalise_spec hsvd heig hx hu hp none (by simp) (fun _ => hnz)
  have hr : SameRay ds x.data y.data := by
    refine ⟨z * R.val [0, 0], ?_, h4 rfl⟩
    intro h0
    obtain ⟨s, hs, hne⟩ := hnz
    exact hne (by rw [h4 rfl s hs, h0, zero_mul])
  refine ⟨y, by rw [h1]; rfl, ⟨h2, h3, hr.nonzero hnz, ?_, by simp [h5]⟩, hr⟩
  intro c hc hlt
  rw [h5] at hc
  cases hc
  omega

theorem FMPS.rightCanonicalise_honest {svd : Svd} {eig : Eig} (hsvd : SVDLaw svd) (heig : EigOrthoLaw eig) {x : FMPS ℂ}
    {ds : List ℕ} (hx : x.Holds ds) (hu : ∀ t ∈ ds, t = x.d) (hp : PosDims x.data)
    (hnz : ∃ s, InB ds s ∧ psi x.data s ≠ 0) :
    ∃ y, (x.rightCanonicalise svd eig).map Prod.fst = .ok y ∧ y.Honest ds ∧ SameRay ds x.data y.data := by
  obtain ⟨y, Ls, h1, h2, h3, hiso, hb, -, h4, -, -, -, -, -, h5⟩ :=
    FMPS.rightCanonicalise_spec hsvd heig hx hu hp none (by simp) (fun _ => hnz)
  have hr : SameRay ds x.data y.data := h4 rfl
  refine ⟨y, by rw [h1]; rfl, ⟨h2, h3, hr.nonzero hnz, ?_, by simp [h5]⟩, hr⟩
  intro c hc hlt
  rw [h5] at hc
  cases hc
  exact ⟨⟨by rw [h2.chain.length_eq]; exact hlt, by simp, fun A hA => hiso A (List.mem_of_mem_drop hA)⟩, hb⟩

namespace FMPS

/-- one method call -/
inductive Call
  | left | right
  | mixed (oc : ℕ)
  | canonL | canonR
  | E (op : ND ℂ) (site : ℕ)
  | Ek (op : ND ℂ) (i k : ℕ)
  | EkString (ops : List (ND ℂ)) (i k : ℕ)
  | rho (i k : ℕ)

/-- the object after the call (the value returned by the call is dropped) -/
noncomputable def Call.run (qr rq : ND ℂ → Py (ND ℂ × ND ℂ)) (svd : Svd) (eig : Eig) (O : SetOrder) (x : FMPS ℂ) : Call → Py (FMPS ℂ)
  | .left => x.leftOrthogonalise qr
  | .right => x.rightOrthogonalise rq
  | .mixed c => x.mixedOrthogonalise qr rq c
  | .canonL => (x.leftCanonicalise svd eig).map Prod.fst
  | .canonR => (x.rightCanonicalise svd eig).map Prod.fst
  | .E op site => (x.E qr rq O op site).map Prod.snd
  | .Ek op i k => (x.Ek qr rq O op (List.range' i k)).map Prod.snd
  | .EkString ops i k => (x.EkString qr rq O ops (List.range' i k)).map Prod.snd
  | .rho i k => (x.rhoFull qr rq O (List.range' i k)).map Prod.snd

/-- arguments that make sense for `L` sites of dimension `d` -/
def Call.Valid (L d : ℕ) : Call → Prop
  | .left | .right | .canonL | .canonR => True
  | .mixed c => c < L
  | .E op site => site < L ∧ op.shape = [d, d]
  | .Ek op i k => 0 < k ∧ i + k ≤ L ∧ op.shape = [d ^ k, d ^ k]
  | .EkString ops i k => 0 < k ∧ i + k ≤ L ∧ ops.length = k ∧ ∀ A ∈ ops, A.shape = [d, d]
  | .rho i k => 0 < k ∧ i + k ≤ L

end FMPS

open FMPS (Call)

theorem FMPS.Honest.call {qr rq : ND ℂ → Py (ND ℂ × ND ℂ)} (hqr : QRLaw qr) (hrq : RQLaw rq)
    {svd : Svd} {eig : Eig} (hsvd : SVDLaw svd) (heig : EigOrthoLaw eig) (O : SetOrder)
    {x : FMPS ℂ} {d L : ℕ} (hx : x.Honest (List.replicate L d)) : ∀ {c : Call}, c.Valid L d →
    ∃ y, c.run qr rq svd eig O x = .ok y ∧ y.Honest (List.replicate L d) ∧ SameRay (List.replicate L d) x.data y.data
  | .left, _ => FMPS.leftOrthogonalise_honest hqr hx.holds hx.pos hx.nonzero
  | .right, _ => FMPS.rightOrthogonalise_honest hrq hx.holds hx.pos hx.nonzero
  | .mixed c, h => by
    obtain ⟨y, h1, h2, -, -, -, h3⟩ := FMPS.mixedOrthogonalise_honest hqr hrq hx.holds hx.pos hx.nonzero (oc := c)
      (by rw [List.length_replicate]; exact h)
    exact ⟨y, h1, h2, h3⟩
  | .canonL, _ => by
    obtain ⟨y, h1, h2, h3⟩ := FMPS.leftCanonicalise_honest hsvd heig hx.holds (fun t ht => by
      rw [hx.holds.d]; exact replicate_headI ht) hx.pos hx.nonzero
    exact ⟨y, by simpa [Call.run] using h1, h2, h3⟩
  | .canonR, _ => by
    obtain ⟨y, h1, h2, h3⟩ := FMPS.rightCanonicalise_honest hsvd heig hx.holds (fun t ht => by
      rw [hx.holds.d]; exact replicate_headI ht) hx.pos hx.nonzero
    exact ⟨y, by simpa [Call.run] using h1, h2, h3⟩
  | .E op site, h => by
    obtain ⟨v, y, h1, h2, h3, -⟩ := FMPS.E_spec hqr hrq O hx (site := site) (d := d) (by simpa using h.1) (by simp [h.1]) h.2
    exact ⟨y, by simp [Call.run, h1, Except.map], h2, h3⟩
  | .Ek op i k, h => by
    obtain ⟨v, y, h1, h2, h3, -⟩ := FMPS.Ek_spec hqr hrq O hx h.1 h.2.1 h.2.2
    exact ⟨y, by simp [Call.run, h1, Except.map], h2, h3⟩
  | .EkString ops i k, h => by
    obtain ⟨v, y, h1, h2, h3, -⟩ := FMPS.EkString_spec hqr hrq O hx h.1 h.2.1 h.2.2.1 h.2.2.2
    exact ⟨y, by simp [Call.run, h1, Except.map], h2, h3⟩
  | .rho i k, h => by
    obtain ⟨v, y, h1, h2, h3, -⟩ := FMPS.rhoFull_spec hqr hrq O hx h.1 h.2
    exact ⟨y, by simp [Call.run, h1, Except.map], h2, h3⟩

/-- Every finite sequence of calls returns, keeps the ray and keeps the flags truthful. -/
theorem FMPS.Honest.calls {qr rq : ND ℂ → Py (ND ℂ × ND ℂ)} (hqr : QRLaw qr) (hrq : RQLaw rq)
    {svd : Svd} {eig : Eig} (hsvd : SVDLaw svd) (heig : EigOrthoLaw eig) (O : SetOrder) {d L : ℕ} :
    ∀ {cs : List Call} {x : FMPS ℂ}, x.Honest (List.replicate L d) → (∀ c ∈ cs, c.Valid L d) →
    ∃ y, cs.foldlM (Call.run qr rq svd eig O) x = .ok y ∧ y.Honest (List.replicate L d) ∧
      SameRay (List.replicate L d) x.data y.data
  | [], x, hx, _ => ⟨x, rfl, hx, SameRay.refl _ _⟩
  | c :: cs, x, hx, h => by
    obtain ⟨y, h1, h2, h3⟩ := hx.call hqr hrq hsvd heig O (h c (by simp))
    obtain ⟨z, h4, h5, h6⟩ := FMPS.Honest.calls hqr hrq hsvd heig O h2 (fun c hc => h c (List.mem_cons_of_mem _ hc))
    exact ⟨z, by rw [List.foldlM_cons, h1, ok_bind, h4], h5, h3.trans h6⟩

/-- **C24** (without the operations that change the state in place): construct an object from tensors,
call any of the gauge-changing methods in any order; then `E_k` returns the normalised expectation
value in the state given to the constructor, and `E` that of the transposed matrix. -/
theorem FMPS.history_partial {qr rq : ND ℂ → Py (ND ℂ × ND ℂ)} (hqr : QRLaw qr) (hrq : RQLaw rq)
    {svd : Svd} {eig : Eig} (hsvd : SVDLaw svd) (heig : EigOrthoLaw eig) (O : SetOrder) {d L : ℕ}
    {data : List (ND ℂ)} (hch : MpsChain (List.replicate L d) data 1 1) (hL : 0 < L) (hp : PosDims data)
    (hnz : ∃ s, InB (List.replicate L d) s ∧ psi data s ≠ 0) {cs : List Call} (hcs : ∀ c ∈ cs, c.Valid L d) :
    ∃ x y, FMPS.init data = .ok x ∧ cs.foldlM (Call.run qr rq svd eig O) x = .ok y ∧
      (∀ op site, site < L → op.shape = [d, d] → ∃ v z, y.E qr rq O op site = .ok (v, z) ∧
        v = (opExpect (List.replicate L d) data site 1 (fun s t => matElem [d] op t s) / braket (List.replicate L d) data data).re) ∧
      ∀ op i k, 0 < k → i + k ≤ L → op.shape = [d ^ k, d ^ k] → ∃ v z, y.Ek qr rq O op (List.range' i k) = .ok (v, z) ∧
        v = (opExpect (List.replicate L d) data i k (matElem (List.replicate k d) op) / braket (List.replicate L d) data data).re := by
  obtain ⟨x, hx, hd, h1, h2, h3, h4⟩ : ∃ x, FMPS.init data = .ok x ∧ x.data = data ∧ x.Holds (List.replicate L d) ∧
      x.canonical = false ∧ x.orthogonal = false ∧ x.oc = none := by
    obtain ⟨x, hx, h1, h2, h3, h4, h5, -⟩ := init_holds hch (by simp; omega) none (.inl rfl)
    exact ⟨x, hx, h1, h2, h3, h4, h5⟩
  subst hd
  have hh := FMPS.fresh_honest h1 hp hnz h2 h3 h4
  obtain ⟨y, h5, h6, h7⟩ := hh.calls hqr hrq hsvd heig O hcs
  have key : ∀ i k (G : List ℕ → List ℕ → ℂ), i + k ≤ L →
      opExpect (List.replicate L d) y.data i k G / braket (List.replicate L d) y.data y.data =
      opExpect (List.replicate L d) x.data i k G / braket (List.replicate L d) x.data x.data := by
    intro i k G hik
    obtain ⟨z, -, -, -, -, hz, hr⟩ := FMPS.mixedOrthogonalise_honest hqr hrq h6.holds h6.pos h6.nonzero (oc := 0) (by simpa)
    rw [← hr.opExpect (by simpa using hik) hz, ← (h7.trans hr).opExpect (by simpa using hik) hz]
  refine ⟨x, y, hx, h5, fun op site hs ho => ?_, fun op i k hk hik ho => ?_⟩
  · obtain ⟨v, z, h8, -, -, h9⟩ := FMPS.E_spec hqr hrq O h6 (site := site) (d := d) (by simpa using hs) (by simp [hs]) ho
    exact ⟨v, z, h8, by rw [h9, key _ _ _ (by omega)]⟩
  · obtain ⟨v, z, h8, -, -, h9⟩ := FMPS.Ek_spec hqr hrq O h6 hk hik ho
    exact ⟨v, z, h8, by rw [h9, key _ _ _ hik]⟩

/-! ### `post_select` leaves the flags -/

theorem FMPS.postSelect_flags {K : Type} [AddCommMonoid K] [Mul K] {x z : FMPS K} {site which : ℕ}
    (h : x.postSelect site which = .ok z) : z.oc = x.oc ∧ z.canonical = x.canonical ∧ z.orthogonal = x.orthogonal := by
  unfold FMPS.postSelect at h
  split at h
  · obtain ⟨A, -, h⟩ := bind_eq_ok h
    obtain ⟨B, -, h⟩ := bind_eq_ok h
    obtain ⟨C, -, h⟩ := bind_eq_ok h
    obtain ⟨T, -, h⟩ := bind_eq_ok h
    cases h
    exact ⟨rfl, rfl, rfl⟩
  · obtain ⟨A, -, h⟩ := bind_eq_ok h
    obtain ⟨B, -, h⟩ := bind_eq_ok h
    obtain ⟨C, -, h⟩ := bind_eq_ok h
    obtain ⟨T, -, h⟩ := bind_eq_ok h
    cases h
    exact ⟨rfl, rfl, rfl⟩

/-- the product state `(1,0) ⊗ (1,1)` -/
def exProd : FMPS ℂ := ⟨[FMPS.column [1, 0], FMPS.column [1, 1]], 2, 2, 1, false, false, none, none⟩

theorem exProd_holds : exProd.Holds [2, 2] := ⟨⟨1, rfl, 1, rfl, rfl⟩, by simp, rfl, rfl⟩

theorem exProd_psi (s t : ℕ) : psi exProd.data [s, t] = ([1, 0] : List ℂ).getD s 0 * ([1, 1] : List ℂ).getD t 0 := by
  simp [psi, exProd, pathProd, FMPS.column, ND.dim]

/-- **C24 fails after `post_select`**: on `(1,0)⊗(1,1)` move the centre to site 0 and project site 1
on its first basis state.  The object then holds a one-site state on which the identity has
expectation value 1, but `E(identity, 0)` returns 1/2; a copy of the object returns 1. -/
theorem FMPS.postSelect_stale {qr rq : ND ℂ → Py (ND ℂ × ND ℂ)} (hqr : QRLaw qr) (hrq : RQLaw rq) (O : SetOrder) :
    ∃ y z z', exProd.mixedOrthogonalise qr rq 0 = .ok y ∧ y.postSelect 1 0 = .ok z ∧
      opExpect [2] z.data 0 1 (matElem [2] (eyeND 2)) / braket [2] z.data z.data = 1 ∧
      z.E qr rq O (eyeND 2) 0 = .ok (1 / 2, z) ∧
      ∃ w, FMPS.init z.data = .ok z' ∧ z'.E qr rq O (eyeND 2) 0 = .ok (1, w) := by
  have hp : PosDims exProd.data := by
    intro A hA n hn
    simp only [exProd, List.mem_cons, List.not_mem_nil, or_false] at hA
    rcases hA with rfl | rfl <;> simp [FMPS.column] at hn <;> omega
  obtain ⟨y, hy, h1, hoc, h2, h3, c, hc, h4⟩ := FMPS.mixedOrthogonalise_honest hqr hrq exProd_holds hp
    ⟨[0, 0], by simp [InB], by rw [exProd_psi]; simp⟩ (oc := 0) (by simp)
  obtain ⟨z, hz, hzc, hzL, hzd, hpsi⟩ := FMPS.postSelect_data_partial h1.holds (site := 1) (which := 0) (by simp) (by simp) (by simp)
  have hzc : MpsChain [2] z.data 1 1 := hzc
  have hpsi : ∀ s, s < 2 → psi z.data [s] = psi y.data [s, 0] := fun s hs => hpsi [s] ⟨hs, trivial⟩
  have v00 : c * psi y.data [0, 0] = 1 := by rw [← h4 _ (by simp [InB]), exProd_psi]; simp
  have v01 : c * psi y.data [0, 1] = 1 := by rw [← h4 _ (by simp [InB]), exProd_psi]; simp
  have v10 : psi y.data [1, 0] = 0 := by
    have : c * psi y.data [1, 0] = 0 := by rw [← h4 _ (by simp [InB]), exProd_psi]; simp
    simpa [hc] using this
  have v11 : psi y.data [1, 1] = 0 := by
    have : c * psi y.data [1, 1] = 0 := by rw [← h4 _ (by simp [InB]), exProd_psi]; simp
    simpa [hc] using this
  have v : psi y.data [0, 1] = psi y.data [0, 0] := mul_left_cancel₀ hc (v01.trans v00.symm)
  have hb : star (psi y.data [0, 0]) * psi y.data [0, 0] = 1 / 2 := by
    simp only [braket, sumIdx_cons, sumIdx_nil, Finset.sum_range_succ, Finset.sum_range_zero, v, v10, v11] at h3
    linear_combination h3 / 2
  obtain ⟨A, hzA⟩ : ∃ A, z.data = [A] := List.length_eq_one_iff.1 (by simpa using hzc.length_eq)
  have hA : A.shape = [2, 1, 1] := by
    rw [hzA] at hzc
    obtain ⟨m, h, rfl⟩ := hzc
    exact h
  have vA : ∀ s, s < 2 → A.val [s, 0, 0] = psi y.data [s, 0] := by
    intro s hs
    rw [← hpsi s hs, hzA]
    simp [psi, pathProd, hA, ND.dim]
  have hbz : braket [2] z.data z.data = 1 / 2 := by
    simp only [braket, sumIdx_cons, sumIdx_nil, Finset.sum_range_succ, Finset.sum_range_zero, hpsi 0 (by simp), hpsi 1 (by simp), v10]
    linear_combination hb
  have hez : ∀ G, G = matElem [2] (eyeND 2) ∨ G = (fun s t => matElem [2] (eyeND 2) t s) → opExpect [2] z.data 0 1 G = 1 / 2 := by
    rintro G (rfl | rfl) <;>
    · simp only [opExpect, sumIdx_cons, sumIdx_nil, Finset.sum_range_succ, Finset.sum_range_zero,
        List.drop_zero, List.take_succ_cons, List.take_zero, List.nil_append, List.take_nil]
      simp only [zero_add, List.drop_succ_cons, List.drop_nil, List.append_nil, matElem, eyeND, ravel_cons,
        ravel_nil, List.prod_nil, mul_one, add_zero, hpsi 0 (by simp), hpsi 1 (by simp), v10]
      norm_num
      exact hb
  obtain ⟨f1, f2, f3⟩ := FMPS.postSelect_flags hz
  obtain ⟨R, hR, hv⟩ := ncon_E O hA (op := eyeND 2) (d := 2) rfl
  obtain ⟨z', hi, hd', hH, g1, g2, g3, -⟩ := init_holds hzc (by simp) none (.inl rfl)
  refine ⟨y, z, z', hy, hz, ?_, ?_, ?_⟩
  · rw [hez _ (.inl rfl), hbz]; norm_num
  · have hre : z.recenter qr rq [0] = .ok z := by
      unfold FMPS.recenter
      rw [if_neg]
      have ho : y.orthogonal = true := by
        obtain ⟨y', As1, A, As2, n, c, hy', -, -, -, -, -, -, ho, -⟩ :=
          FMPS.mixedOrthogonalise_spec hqr hrq exProd_holds hp ⟨[0, 0], by simp [InB], by rw [exProd_psi]; simp⟩ (oc := 0) (by simp)
        rw [hy] at hy'
        cases hy'
        exact ho
      simp [f1, f3, hoc, ho]
    unfold FMPS.E
    rw [hre, ok_bind, hzA, pyGet_cons_zero, ok_bind, hR, ok_bind]
    refine congrArg Except.ok (Prod.ext ?_ rfl)
    rw [hv]
    simp only [Finset.sum_range_succ, Finset.sum_range_zero, vA 0 (by simp), vA 1 (by simp), v10, eyeND]
    have := congrArg Complex.re hb
    simp at this ⊢
    linarith
  · have hh : z'.Honest [2] := by
      refine FMPS.fresh_honest hH ?_ ⟨[0], by simp [InB], ?_⟩ g1 g2 g3
      · intro B hB n hn
        rw [hd', hzA, List.mem_singleton] at hB
        subst hB
        simp [hA] at hn
        omega
      · intro e
        rw [hd', hpsi 0 (by simp)] at e
        rw [e] at v00
        simp at v00
    obtain ⟨u, w, e1, -, -, e2⟩ := FMPS.E_spec hqr hrq O hh (op := eyeND 2) (site := 0) (d := 2) (by simp) (by simp) rfl
    refine ⟨w, hi, ?_⟩
    rw [hd'] at e2
    have : u = 1 := by rw [e2, hez _ (.inr rfl), hbz]; norm_num
    rw [this] at e1
    exact e1

example {qr rq : ND ℂ → Py (ND ℂ × ND ℂ)} (hqr : QRLaw qr) (hrq : RQLaw rq) {svd : Svd} {eig : Eig} (hsvd : SVDLaw svd)
    (heig : EigOrthoLaw eig) (O : SetOrder) :=
  FMPS.history_partial hqr hrq hsvd heig O (d := 2) (L := 2) (data := (exTwo 2).data) (exTwo_holds 2).chain (by simp) (exTwo_pos 2)
    exTwo_honest.nonzero (cs := [.left, .canonL, .E sigmaY 1, .rho 0 2, .mixed 1, .right, .canonR, .Ek sigmaY 0 1])
    (by simp [FMPS.Call.Valid, sigmaY])

end Xmps
