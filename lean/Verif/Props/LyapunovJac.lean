import Verif.Props.TsInt
import Verif.Props.TangentBasis

/-!
# `lyapunov` and `ts_int` with the matrices of `jac` (C97, C98)

The evolution is a parameter.  It is to lead from states with full-rank environments to such states with tensors of the same shapes.
-/

namespace Xmps

open Finset Spec Matrix Xmps.Ncon

/-- a state `jac` accepts, with tensors of the shapes `shs` -/
structure LyState (L m : ℕ) (shs : List (List ℕ)) (x : FMPS ℂ) : Prop where
  holds : x.Holds (List.replicate L 2)
  full : FullEnvs (List.replicate L 2) x.data
  pre : EmptyPrefix 2 x.data m
  shapes : x.data.map ND.shape = shs

/-- `old_vL` holds arrays of the shapes of the null vectors -/
def OldFits (shs : List (List ℕ)) : Option (List (ND ℂ)) → Prop
  | none => True
  | some old => ∀ i (hi : i < shs.length), ∀ p q, shs[i] = [2, p, q] → 2 * p ≠ q → (old.getD i (zerosND [])).shape = [2, p, 2 * p - q] ∧ i < old.length

/-- the dimension of the tangent space, from the shapes -/
def shapesDim (shs : List (List ℕ)) : ℕ := (shs.map fun s => (2 * s.getD 1 0 - s.getD 2 0) * s.getD 2 0).sum

theorem shapesDim_eq {L m : ℕ} {shs : List (List ℕ)} {x : FMPS ℂ} (h : LyState L m shs x) : tangentDim 2 x.data = shapesDim shs := by
  rw [← h.shapes]
  have key : ∀ As : List (ND ℂ), (∀ A ∈ As, A.shape.length = 3) → tangentDim 2 As = shapesDim (As.map ND.shape) := by
    intro As hA
    unfold tangentDim shapesDim
    rw [List.map_map]
    refine congrArg _ (List.map_congr_left fun A hA' => ?_)
    have := hA A hA'
    match hs : A.shape, this with
    | [a, b, c], _ => simp [ND.dim, hs]
  refine key _ fun A hA => ?_
  obtain ⟨i, hi, rfl⟩ := List.getElem_of_mem hA
  obtain ⟨p, q, -, e, -⟩ := chain_site h.holds.chain hi
  rw [e]
  rfl

section
variable {polar : ND ℂ → Py (ND ℂ × ND ℂ)} {chol inv null : ND ℂ → Py (ND ℂ)} (hpol : PolarLaw polar) (hchol : CholTriLaw chol) (hinv : InvLaw inv) (hnull : NullLaw null) (O : SetOrder)
  {L m : ℕ} {shs : List (List ℕ)} {H : List (ND ℂ)} (hL : H.length < L) (hH : ∀ h ∈ H, h.shape = [4, 4])
  (hh : ∀ h ∈ H, ∀ a < 4, ∀ b < 4, star (h.val [b, a]) = h.val [a, b])
include hpol hchol hinv hnull hL hH hh

/-- `jac` at a state of a run: a Hamiltonian matrix, null vectors that fit the next state -/
theorem FMPS.jac_fits {x : FMPS ℂ} (hx : LyState L m shs x) {old : Option (List (ND ℂ))} (ho : OldFits shs old) :
    ∃ J vs, FMPS.jacFixed polar chol inv null O x old H = .ok (J, vs) ∧ HamND (shapesDim shs) J ∧ OldFits shs (some vs) := by
  rw [← shapesDim_eq hx]
  have hsh : ∀ i (hi : i < x.data.length) (hi' : i < shs.length), shs[i] = x.data[i].shape := by
    intro i hi hi'
    have := hx.shapes
    subst this
    simp
  have hlen : shs.length = x.data.length := by rw [← hx.shapes]; simp
  cases old with
  | some old =>
    obtain ⟨J, vs, e1, e2, -, e4, hl, e5⟩ := FMPS.jac_fixed hpol hchol hinv hnull O hx.holds hx.full hx.pre hL hH hh (old := old) (by
      intro i hi p q hA hq
      exact ho i (by omega) p q (by rw [hsh i hi (by omega)]; exact hA) hq)
    refine ⟨J, vs, e1, ⟨e2, e4⟩, fun i hi p q hA hq => ?_⟩
    rw [hsh i (by omega) hi] at hA
    rw [List.getD_eq_getElem _ _ (by omega)]
    exact ⟨(e5 i (by omega) p q hA).1.shape, by omega⟩
  | none =>
    obtain ⟨ls, rs, E, e, eE, pr, vL, l, r, p, q, k, lam, rho, hnl, epr, c⟩ := f2Ctx_gen chDiag_roots hchol hinv hnull O (by omega) hx.holds hx.full
    have hl := c.len
    obtain ⟨J, e1, e2, -, e4⟩ := FMPS.jac_hamiltonian hchol hinv hnull O hx.holds hx.full hx.pre hL hH hh
    rw [← FMPS.jacFixed_none (polar := polar)] at e1
    have e3 : ∃ vs, FMPS.jacFixed polar chol inv null O x none H = .ok (J, vs) := by
      match hj : FMPS.jacFixed polar chol inv null O x none H, e1 with
      | .ok (J', vs), e1 =>
        obtain rfl : J' = J := by simpa [Except.map] using e1
        exact ⟨vs, rfl⟩
    obtain ⟨vs, e3⟩ := e3
    refine ⟨J, vs, e3, ⟨e2, e4⟩, ?_⟩
    have hvs : vs = (List.range L).map vL := by
      unfold FMPS.jacFixed at e3
      rw [e, ok_bind] at e3
      simp only at e3
      rw [epr, ok_bind] at e3
      simp only [FMPS.fixNulls, List.map_map, ok_bind] at e3
      obtain ⟨a, h1, h2⟩ := bind_eq_ok e3
      obtain ⟨b, h3, h4⟩ := bind_eq_ok h2
      have := (Prod.mk.inj (Except.ok.inj h4)).2
      rw [← this]
      rfl
    intro i hi p' q' hA hq
    rw [hsh i (by omega) hi, (c.site i (by omega)).hA] at hA
    obtain ⟨rfl, rfl⟩ : p i = p' ∧ q i = q' := by simpa using hA
    have hs := c.site i (by omega)
    rw [List.getD_eq_getElem _ _ (by simp [hvs]; omega)]
    simp only [hvs, List.getElem_map, List.getElem_range]
    refine ⟨?_, by simp; omega⟩
    rw [hs.basis.shape, show 2 * p i - q i = k i by have := hs.count; omega]

variable {evolve : FMPS ℂ → Py (FMPS ℂ)} (hev : ∀ x y, LyState L m shs x → evolve x = .ok y → LyState L m shs y)
include hev

/-- the matrices of a run are Hamiltonian -/
theorem FMPS.jac_run : Tdvp.HamRun (fun x old => FMPS.jacFixed polar chol inv null O x old H) evolve (fun x old => LyState L m shs x ∧ OldFits shs old) (shapesDim shs) := by
  rintro x old ⟨hx, ho⟩
  obtain ⟨J, vs, e1, e2, e3⟩ := FMPS.jac_fits hpol hchol hinv hnull O hL hH hh hx ho
  exact ⟨J, vs, e1, e2, fun y hy => ⟨hev x y hx hy, e3⟩⟩

/-- **C97** `lyapunov(T)` for Hermitian two-site terms, with the basis `tangent_space_basis('F2', H)` and an evolution that stays among states with full-rank
environments: the basis exists, and whatever the run returns, all exponents and all their running means have sum zero. -/
theorem FMPS.lyapunov_sum {qr : ND ℂ → Py (ND ℂ × ND ℂ)} (hqr : QRLaw qr) {svd : ND ℂ → Py (ND ℂ × List ℝ × ND ℂ)} (hsvd : SVDLaw svd) {close : ND ℂ → Bool}
    (hclose : ∀ (X : ND ℂ) (n : ℕ), X.shape = [n, n] → (∀ i < n, ∀ j < n, X.val [i, j] = 0) → close X = true)
    {conv : List (List ℝ) → Py ℝ} {thresh : Option ℝ} {x : FMPS ℂ} (hx : LyState L m shs x) {t0 t1 : ℝ} {ts : List ℝ} (ht : t0 ≠ t1) {k : ℕ} :
    ∃ Q, FMPS.basisF2 chol inv null svd close O x H = .ok Q ∧ ∀ exps lys expsB lysB,
      Tdvp.lyapunov qr conv thresh (fun x old => FMPS.jacFixed polar chol inv null O x old H) evolve x Q (t0 :: t1 :: ts) k = .ok (exps, lys, expsB, lysB) →
      ∀ l ∈ lys ++ lysB ++ exps ++ expsB, l.length = 2 * shapesDim shs ∧ l.sum = 0 := by
  have hpos := tangentDim_pos hchol hinv hnull O hx.holds hx.full le_rfl
  obtain ⟨Q, e1, hQ⟩ := FMPS.basisF2_spec hchol hinv hnull O hx.holds hx.full hx.pre hL hH hsvd hclose hh
  rw [shapesDim_eq hx] at hpos hQ
  refine ⟨Q, e1, fun exps lys expsB lysB h => ?_⟩
  obtain ⟨Js, -, -, -, -, -, -, -, -, h1, -⟩ := Tdvp.lyapunov_spec (FMPS.jac_run hpol hchol hinv hnull O hL hH hh hev) hqr hpos hQ ⟨hx, trivial⟩ ht h
  exact h1

/-- **C98** `ts_int(T)` for Hermitian two-site terms: every matrix of `Ms` is symplectic. -/
theorem FMPS.tsInt_symplectic {x : FMPS ℂ} (hx : LyState L m shs x) {t0 t1 : ℝ} {ts : List ℝ} {Ms : List (ND ℂ)}
    (h : Tdvp.tsInt (fun x old => FMPS.jacFixed polar chol inv null O x old H) evolve x (t0 :: t1 :: ts) = .ok Ms) :
    Ms.length = ts.length + 3 ∧ ∀ m (hm : m < Ms.length), SympND (shapesDim shs) Ms[m] := by
  obtain ⟨Js, -, -, h1, h2⟩ := Tdvp.tsInt_spec (FMPS.jac_run hpol hchol hinv hnull O hL hH hh hev) (x := x) ⟨hx, trivial⟩ h
  exact ⟨h1, fun m hm => (h2 m hm).1⟩

end

/-! ### examples -/

theorem exScaled_ly : LyState 2 0 [[2, 1, 1], [2, 1, 1]] (exScaled (2 : ℝ)) :=
  ⟨exScaled_holds (2 : ℝ), exScaled_full 2 two_ne_zero, exScaled_prefix _, by simp [exScaled]⟩

section
variable {polar : ND ℂ → Py (ND ℂ × ND ℂ)} {chol inv null : ND ℂ → Py (ND ℂ)} (hpol : PolarLaw polar) (hchol : CholTriLaw chol) (hinv : InvLaw inv) (hnull : NullLaw null) (O : SetOrder)
include hpol hchol hinv hnull

/-- the run of three steps at `2|00⟩` with a state that stays: it returns -/
theorem exRun {qr : ND ℂ → Py (ND ℂ × ND ℂ)} (hqr : QRLaw qr) {Q : ND ℂ} (hQ : IsUnitary Q 4) :
    ∃ out, Tdvp.lyapunov qr (fun _ => .ok 0) none (fun x old => FMPS.jacFixed polar chol inv null O x old [exPairTerm]) (fun x => .ok x) (exScaled (2 : ℝ)) Q [0, 1, 2] 0 = .ok out :=
  Tdvp.lyapunov_total (FMPS.jac_run hpol hchol hinv hnull O (H := [exPairTerm]) (by simp) (by simp [exPairTerm]) exPair_herm
    (evolve := fun x => .ok x) (L := 2) (m := 0) (shs := [[2, 1, 1], [2, 1, 1]]) (fun x y hx h => by
      obtain rfl := Except.ok.inj h
      exact hx)) hqr (fun l => ⟨0, rfl⟩) none (fun x old _ => ⟨x, rfl⟩) (D := shapesDim [[2, 1, 1], [2, 1, 1]]) (by simp [shapesDim]) (by simpa [shapesDim] using hQ) ⟨exScaled_ly, trivial⟩ 0 1 [2] 0

example {qr : ND ℂ → Py (ND ℂ × ND ℂ)} (hqr : QRLaw qr) {svd : ND ℂ → Py (ND ℂ × List ℝ × ND ℂ)} (hsvd : SVDLaw svd) :=
  FMPS.lyapunov_sum hpol hchol hinv hnull O (H := [exPairTerm]) (by simp) (by simp [exPairTerm]) exPair_herm (evolve := fun x => .ok x) (fun x y hx h => by
      obtain rfl := Except.ok.inj h
      exact hx) hqr hsvd (close := fun _ => true) (by simp) (conv := fun _ => .ok 0) (thresh := none) exScaled_ly (t0 := 0) (t1 := 1) (ts := [2]) zero_ne_one (k := 0)

/-- also with `just_max=True` -/
example {Q : ND ℂ} (hQ : IsUnitary Q 4) := Tdvp.lyapunovMax_total (FMPS.jac_run hpol hchol hinv hnull O (H := [exPairTerm]) (by simp) (by simp [exPairTerm]) exPair_herm
    (evolve := fun x => .ok x) (L := 2) (m := 0) (shs := [[2, 1, 1], [2, 1, 1]]) (fun x y hx h => by
      obtain rfl := Except.ok.inj h
      exact hx)) (fun x old _ => ⟨x, rfl⟩) (D := shapesDim [[2, 1, 1], [2, 1, 1]]) (by simp [shapesDim]) (by simpa [shapesDim] using hQ) ⟨exScaled_ly, trivial⟩ 0 1 [2] 0

/-- the matrices of `ts_int` for that run exist -/
example : ∃ Ms, Tdvp.tsInt (fun x old => FMPS.jacFixed polar chol inv null O x old [exPairTerm]) (fun x => .ok x) (exScaled (2 : ℝ)) [0, 1] = .ok Ms := by
  have hr := FMPS.jac_fits hpol hchol hinv hnull O (H := [exPairTerm]) (by simp) (by simp [exPairTerm]) exPair_herm (old := none) exScaled_ly trivial
  obtain ⟨J, vs, e1, hJ, ho⟩ := hr
  obtain ⟨J2, vs2, e2, hJ2, ho2⟩ := FMPS.jac_fits hpol hchol hinv hnull O (H := [exPairTerm]) (by simp) (by simp [exPairTerm]) exPair_herm exScaled_ly ho
  obtain ⟨M1, f1, g1, -⟩ := expmMat_ok (A := J.smul ((1 : ℝ) : ℂ)) (B := eyeND (J.dim 0)) hJ.shape (show (eyeND (J.dim 0) : ND ℂ).shape = [_, _] by
    rw [show J.dim 0 = 2 * shapesDim [[2, 1, 1], [2, 1, 1]] by simp [ND.dim, hJ.shape]]; rfl)
  obtain ⟨M2, f2, -, -⟩ := expmMat_ok (A := J2.smul ((1 : ℝ) : ℂ)) hJ2.shape g1
  refine ⟨[eyeND (J.dim 0), M1, M2], ?_⟩
  unfold Tdvp.tsInt
  rw [show Tdvp.lyDt [0, 1] = .ok (1 : ℝ) by simp [Tdvp.lyDt, pyGet], ok_bind]
  simp only [List.length_cons, List.length_nil, Tdvp.tsLoop, e1, ok_bind, e2, f1, f2]

end

end Xmps
