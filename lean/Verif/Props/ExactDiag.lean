import Verif.Model.ExactDiag
import Verif.Props.FromState
import Verif.Props.FmpsArith
import Verif.Props.Hamiltonian
import Verif.Props.SpinUnitary
import Verif.Props.Imps
import Verif.Props.Trajectory
import Verif.Props.NBody
import Verif.Props.Envs
import Verif.Props.LapackSvd
import Verif.Lemmas.FmpsExamples
import Verif.Lemmas.TangentVec

/-!
# C72, C73: exact time evolution (`edint`, `ed_evs`, `ed_energies`, `ed_OTOC`)
-/

namespace Xmps.Spec

open Finset

/-- the state at time `t`: the solution of `i dψ/dt = M ψ` that is `ψ` at time 0 (`evolve_zero`, `evolve_schroedinger`) -/
noncomputable def evolve {n : ℕ} (M : Matrix (Fin n) (Fin n) ℂ) (t : ℝ) (ψ : Fin n → ℂ) : Fin n → ℂ :=
  (NormedSpace.exp ((-Complex.I) • ((t : ℂ) • M))).mulVec ψ

/-- `⟨φ|ψ⟩` -/
def ip {n : ℕ} (φ ψ : Fin n → ℂ) : ℂ := ∑ i, star (φ i) * ψ i

/-- the matrix of `Σ_m h_m`, `h_m` acting on the sites `m`, `m+1` of a chain of `L` qubits -/
noncomputable def chainHam (L : ℕ) (hs : List (ND ℂ)) : Matrix (Fin (2 ^ L)) (Fin (2 ^ L)) ℂ :=
  Matrix.of fun a b => (hs.zipIdx.map fun p => blockElem 2 p.1 p.2 2 (unravel (List.replicate L 2) a) (unravel (List.replicate L 2) b)).sum

/-- the operator `W` in the Heisenberg picture -/
noncomputable def heisenberg {n : ℕ} (M : Matrix (Fin n) (Fin n) ℂ) (t : ℝ) (W : Matrix (Fin n) (Fin n) ℂ) : Matrix (Fin n) (Fin n) ℂ :=
  NormedSpace.exp (Complex.I • ((t : ℂ) • M)) * W * NormedSpace.exp ((-Complex.I) • ((t : ℂ) • M))

/-- the amplitudes of a chain in the usual order of the basis states -/
def stateVec (d L : ℕ) (As : List (ND ℂ)) : Fin (d ^ L) → ℂ := fun a => psi As (unravel (List.replicate L d) a)

end Xmps.Spec

namespace Xmps.Tdvp

open Finset Xmps.Spec Matrix

/-! ### the exact flow -/

section
variable {n : ℕ} (M : Matrix (Fin n) (Fin n) ℂ)

theorem evolve_zero (ψ : Fin n → ℂ) : evolve M 0 ψ = ψ := by simp [evolve]

theorem evolve_add (s t : ℝ) (ψ : Fin n → ℂ) : evolve M s (evolve M t ψ) = evolve M (s + t) ψ := by
  unfold evolve
  rw [mulVec_mulVec, ← exp_add_of_commute]
  · congr 2
    push_cast
    module
  · exact ((Commute.refl M).smul_left _ |>.smul_left _).smul_right _ |>.smul_right _

open scoped Norms.Operator in
/-- `evolve` solves the Schrödinger equation -/
theorem evolve_schroedinger (t : ℝ) (ψ : Fin n → ℂ) :
    HasDerivAt (fun t => evolve M t ψ) ((-Complex.I) • M.mulVec (evolve M t ψ)) t := by
  have h := hasDerivAt_exp_smul_const' (𝕂 := ℝ) ((-Complex.I) • M) t
  let φ : Matrix (Fin n) (Fin n) ℂ →L[ℝ] (Fin n → ℂ) :=
    LinearMap.toContinuousLinearMap
      { toFun := fun A => A.mulVec ψ
        map_add' := fun A B => add_mulVec A B ψ
        map_smul' := fun c A => smul_mulVec c A ψ }
  have h2 := φ.hasFDerivAt.comp_hasDerivAt t h
  have fl : ∀ u : ℝ, (-Complex.I) • ((u : ℂ) • M) = u • (-Complex.I) • M := by
    intro u
    ext i j
    simp [Matrix.smul_apply]
    ring
  have e1 : (fun t => evolve M t ψ) = φ ∘ fun u : ℝ => NormedSpace.exp (u • (-Complex.I) • M) := by
    funext u
    rw [evolve, fl]
    rfl
  have e2 : φ ((-Complex.I) • M * NormedSpace.exp (t • (-Complex.I) • M)) = (-Complex.I) • M.mulVec (evolve M t ψ) := by
    show ((-Complex.I) • M * NormedSpace.exp (t • (-Complex.I) • M)).mulVec ψ = _
    rw [evolve, fl, smul_mul_assoc, smul_mulVec, mulVec_mulVec]
  rw [e1, ← e2]
  exact h2

theorem ip_mulVec (A : Matrix (Fin n) (Fin n) ℂ) (φ ψ : Fin n → ℂ) : ip (A.mulVec φ) ψ = ip φ (Aᴴ.mulVec ψ) := by
  simp only [ip, mulVec, dotProduct, star_sum, star_mul', sum_mul, mul_sum, conjTranspose_apply]
  rw [sum_comm]
  refine sum_congr rfl fun i _ => sum_congr rfl fun j _ => by ring

variable {M}

theorem evolve_unitary (hM : M.IsHermitian) (t : ℝ) :
    (NormedSpace.exp ((-Complex.I) • ((t : ℂ) • M)))ᴴ * NormedSpace.exp ((-Complex.I) • ((t : ℂ) • M)) = 1 := by
  apply Spin.exp_unitary
  rw [IsHermitian, conjTranspose_smul, hM.eq]
  simp

/-- unitary evolution preserves inner products -/
theorem evolve_ip (hM : M.IsHermitian) (t : ℝ) (φ ψ : Fin n → ℂ) : ip (evolve M t φ) (evolve M t ψ) = ip φ ψ := by
  unfold evolve
  rw [ip_mulVec, mulVec_mulVec, evolve_unitary hM, one_mulVec]

theorem evolve_commute (t : ℝ) (ψ : Fin n → ℂ) : M.mulVec (evolve M t ψ) = evolve M t (M.mulVec ψ) := by
  unfold evolve
  rw [mulVec_mulVec, mulVec_mulVec]
  congr 1
  have : Commute M ((-Complex.I) • ((t : ℂ) • M)) := ((Commute.refl M).smul_right _).smul_right _
  open scoped Norms.Operator in exact this.exp_right
  
/-- the energy is conserved -/
theorem evolve_energy (hM : M.IsHermitian) (t : ℝ) (ψ : Fin n → ℂ) :
    ip (evolve M t ψ) (M.mulVec (evolve M t ψ)) = ip ψ (M.mulVec ψ) := by
  rw [evolve_commute, evolve_ip hM]

end

/-! ### the arrays -/

theorem toV_ofV {n : ℕ} (v : Fin n → ℂ) : toV n (ofV v) = v := by
  funext i
  simp [toV, ofV]

theorem expmMul_ok {n : ℕ} {A v : ND ℂ} (hA : A.shape = [n, n]) (hv : v.shape = [n]) :
    ∃ R, expmMul A v = .ok R ∧ R.shape = [n] ∧ toV n R = (NormedSpace.exp (toM n n A)).mulVec (toV n v) := by
  refine ⟨_, by simp [expmMul, hA, hv], rfl, toV_ofV _⟩

theorem edLoop_ok {n : ℕ} {M : ND ℂ} (hM : M.shape = [n, n]) (dt : ℝ) : ∀ (m : ℕ) (psi : ND ℂ), psi.shape = [n] →
    ∃ l, edLoop M dt m psi = .ok l ∧ l.length = m ∧ ∀ k (hk : k < l.length), (l[k]).shape = [n] ∧
      toV n l[k] = evolve (toM n n M) ((k + 1 : ℕ) * dt) (toV n psi)
  | 0, psi, _ => ⟨[], rfl, rfl, by simp⟩
  | m + 1, psi, hp => by
    obtain ⟨R, r1, r2, r3⟩ := expmMul_ok (A := (M.smul (-1 * Complex.I)).smul (dt : ℂ)) (v := psi) (n := n) hM hp
    have e : toM n n ((M.smul (-1 * Complex.I)).smul (dt : ℂ)) = (-Complex.I) • ((dt : ℂ) • toM n n M) := by
      ext i j
      simp [ND.smul]
      ring
    rw [e] at r3
    obtain ⟨l, l1, l2, l3⟩ := edLoop_ok hM dt m R r2
    refine ⟨R :: l, by rw [edLoop, r1, ok_bind, l1, ok_bind], by simp [l2], ?_⟩
    intro k hk
    cases k with
    | zero =>
      refine ⟨r2, ?_⟩
      rw [List.getElem_cons_zero, r3, evolve]
      congr 4
      push_cast
      ring
    | succ k =>
      obtain ⟨a, b⟩ := l3 k (by simpa using hk)
      refine ⟨a, ?_⟩
      simp only [List.getElem_cons_succ]
      rw [b, r3]
      have := evolve_add (toM n n M) ((k + 1 : ℕ) * dt) dt (toV n psi)
      rw [show evolve (toM n n M) dt (toV n psi) = (NormedSpace.exp ((-Complex.I) • ((dt : ℂ) • toM n n M))).mulVec (toV n psi) from rfl] at this
      rw [this]
      congr 1
      push_cast
      ring

theorem stateVec_ip (d L : ℕ) (As Bs : List (ND ℂ)) : ip (stateVec d L As) (stateVec d L Bs) = braket (List.replicate L d) As Bs := by
  rw [braket, sumIdx_eq_flat, List.prod_replicate, Finset.sum_range]
  rfl

theorem edint_core {svd : Svd} (hsvd : SVDLaw svd) {ilog : ℕ → ℕ → ℕ} {d L : ℕ} (hd : 0 < d) (hL : 0 < L) {x : FMPS ℂ}
    (hx : x.Holds (List.replicate L d)) {H : EdH} {M : ND ℂ} (hM : H.matrix ilog = .ok M) (hMs : M.shape = [d ^ L, d ^ L])
    (t0 t1 : ℝ) (T : List ℝ) :
    ∃ hist y, ∃ w : ℂ, edint svd ilog H x (t0 :: t1 :: T) = .ok (hist, y) ∧ hist.length = (t0 :: t1 :: T).length ∧
      (∀ k (hk : k < hist.length), (hist[k]).shape = [d ^ L] ∧
        toV (d ^ L) hist[k] = evolve (toM (d ^ L) (d ^ L) M) (k * (t1 - t0)) (stateVec d L x.data)) ∧
      y.Holds (List.replicate L d) ∧ (∀ A ∈ y.data, LeftIso A) ∧ braket (List.replicate L d) y.data y.data = 1 ∧
      (∀ a, evolve (toM (d ^ L) (d ^ L) M) ((T.length + 1 : ℕ) * (t1 - t0)) (stateVec d L x.data) a = w * stateVec d L y.data a) := by
  obtain ⟨R, r1, r2, r3⟩ := FMPS.recombine_amplitudes hx
  have hsz : R.size = d ^ L := by simp [ND.size, r2]
  have hre : R.reshape [R.size] = .ok (R.reshapeR [d ^ L]) := by
    rw [ND.reshape, hsz]
    simp
  have h0 : toV (d ^ L) (R.reshapeR [d ^ L]) = stateVec d L x.data := by
    funext a
    have : InB (List.replicate L d) (unravel (List.replicate L d) a) := InB_unravel (by simp)
    simp [toV, ND.reshapeR, stateVec, r2, r3 _ this]
  obtain ⟨l, l1, l2, l3⟩ := edLoop_ok hMs (t1 - t0) (T.length + 1) (R.reshapeR [d ^ L]) rfl
  have hall : ∀ k (hk : k < (R.reshapeR [d ^ L] :: l).length), ((R.reshapeR [d ^ L] :: l)[k]).shape = [d ^ L] ∧
      toV (d ^ L) (R.reshapeR [d ^ L] :: l)[k] = evolve (toM (d ^ L) (d ^ L) M) (k * (t1 - t0)) (stateVec d L x.data) := by
    intro k hk
    cases k with
    | zero =>
      refine ⟨rfl, ?_⟩
      simp only [List.getElem_cons_zero, Nat.cast_zero, zero_mul]
      rw [evolve_zero, h0]
    | succ k =>
      rw [← h0]
      exact l3 k (by simpa using hk)
  have hlen : (R.reshapeR [d ^ L] :: l).length = T.length + 2 := by simp [l2]
  have hlast : FMPS.pyLast (R.reshapeR [d ^ L] :: l) = .ok (R.reshapeR [d ^ L] :: l)[T.length + 1] := by
    simp only [FMPS.pyLast, pyGetI, hlen]
    rw [if_neg (by omega), if_pos (by omega), show ((-1 : ℤ) + ((T.length + 2 : ℕ) : ℤ)).toNat = T.length + 1 by omega,
      pyGet_ok (by omega)]
  obtain ⟨q1, q2⟩ := hall (T.length + 1) (by omega)
  set P := (R.reshapeR [d ^ L] :: l)[T.length + 1] with hP
  have hst : P.reshape (List.replicate x.L x.d) = .ok (P.reshapeR (List.replicate L d)) := by
    have e1 : x.L = L := by simpa using hx.len
    have e2 : x.d = d := by
      rw [hx.d]
      cases L with
      | zero => omega
      | succ L => rfl
    rw [ND.reshape, e1, e2]
    simp [ND.size, q1]
  obtain ⟨y, Ls, w, y1, y2, -, y3, y4, y5, -⟩ := FMPS.leftFromState_spec hsvd hd hL (state := P.reshapeR (List.replicate L d)) rfl
  refine ⟨_, y, w, ?_, by simp [l2], hall, y2, y3, y4, ?_⟩
  · simp only [edint, r1, ok_bind, hre, hM, pyGet, List.getElem?_cons_zero, List.getElem?_cons_succ, List.dropLast_cons_cons,
      List.length_dropLast, List.length_cons]
    rw [show T.length + 1 - 1 + 1 = T.length + 1 by omega, l1, ok_bind, hlast, ok_bind, hst, ok_bind, y1, ok_bind]
  · intro a
    have hin : InB (List.replicate L d) (unravel (List.replicate L d) a) := InB_unravel (by simp)
    have := y5 _ hin
    rw [stateVec, ← this, ← q2]
    simp only [toV, ND.reshapeR, q1, ravel_unravel (show a.1 < (List.replicate L d).prod by simp)]
    simp [unravel_cons]

/-! ### the Hamiltonian -/

theorem npSum_ok {m : ℕ} : ∀ (l : List (ND ℂ)) (A : ND ℂ), A.shape = [m, m] → (∀ B ∈ l, B.shape = [m, m]) →
    ∃ R, npSum (A :: l) = .ok R ∧ R.shape = [m, m] ∧ ∀ idx, R.val idx = ((A :: l).map fun B => B.val idx).sum
  | [], A, hA, _ => ⟨A, rfl, hA, by simp⟩
  | B :: l, A, hA, h => by
    have hB := h B (by simp)
    obtain ⟨R, r1, r2, r3⟩ := npSum_ok l ⟨[m, m], fun idx => A.val idx + B.val idx⟩ rfl fun C hC => h C (by simp [hC])
    refine ⟨R, ?_, r2, fun idx => by rw [r3]; simp [add_assoc]⟩
    rw [npSum, List.foldlM_cons]
    have : ND.zipNd (· + ·) A B = .ok ⟨[m, m], fun idx => A.val idx + B.val idx⟩ := by simp [ND.zipNd, hA, hB]
    rw [this, ok_bind]
    exact r1

/-- the matrix built by `edint` and `ed_energies` from `L - 1` two-site terms -/
theorem matrix_terms {ilog : ℕ → ℕ → ℕ} (hlog : ilog 4 2 = 2) {hs : List (ND ℂ)} (hne : hs ≠ []) (hh : ∀ h ∈ hs, h.shape = [4, 4]) :
    ∃ M, (EdH.terms hs).matrix ilog = .ok M ∧ M.shape = [2 ^ (hs.length + 1), 2 ^ (hs.length + 1)] ∧
      toM (2 ^ (hs.length + 1)) (2 ^ (hs.length + 1)) M = chainHam (hs.length + 1) hs := by
  set n := hs.length with hn
  have key : ∀ j, ∃ R, ∀ hj : j < hs.length, Spin.nBody ilog hs[j] (j : ℕ) n (some 2) = .ok R ∧ R.shape = [2 ^ (n + 1), 2 ^ (n + 1)] ∧
      ∀ s t, InB (List.replicate (n + 1) 2) s → InB (List.replicate (n + 1) 2) t →
        matElem (List.replicate (n + 1) 2) R s t = blockElem 2 hs[j] j 2 s t := by
    intro j
    by_cases hj : j < hs.length
    swap
    · exact ⟨zerosND [], fun h => absurd h hj⟩
    obtain ⟨R, h⟩ := Spin.nBody_d (ilog := ilog) (op := hs[j]) (d := 2) (k := 2) (hh _ (List.getElem_mem hj)) hlog (i := j) (n := n) (by omega) (by omega)
    exact ⟨R, fun _ => h⟩
  choose R hR using key
  have r1 := fun j hj => (hR j hj).1
  have r2 := fun j hj => (hR j hj).2.1
  have r3 := fun j hj => (hR j hj).2.2
  have em := mapM_zipIdx (l := hs) (f := fun (p : ND ℂ × ℕ) => Spin.nBody ilog p.1 p.2 n (some 2)) (g := R) (fun j hj => r1 j hj)
  have hpos : 0 < hs.length := List.length_pos_iff.2 hne
  obtain ⟨A, l, hAl⟩ : ∃ A l, (List.range hs.length).map R = A :: l := List.exists_cons_of_ne_nil (by simp; exact hne)
  have hsh : ∀ B ∈ A :: l, B.shape = [2 ^ (n + 1), 2 ^ (n + 1)] := by
    intro B hB
    rw [← hAl] at hB
    obtain ⟨j, hj, rfl⟩ := List.mem_map.1 hB
    exact r2 j (by simpa using hj)
  obtain ⟨S, s1, s2, s3⟩ := npSum_ok l A (hsh A (by simp)) fun B hB => hsh B (by simp [hB])
  refine ⟨S, ?_, s2, ?_⟩
  · simp only [EdH.matrix]
    rw [em, ok_bind, hAl, s1]
  · ext a b
    have ha : InB (List.replicate (n + 1) 2) (unravel (List.replicate (n + 1) 2) a) := InB_unravel (by simp)
    have hb : InB (List.replicate (n + 1) 2) (unravel (List.replicate (n + 1) 2) b) := InB_unravel (by simp)
    rw [toM_apply, s3, ← hAl, List.map_map, chainHam, Matrix.of_apply]
    congr 1
    apply List.ext_getElem
    · simp
    · intro j h1 h2
      have hj : j < hs.length := by simpa using h1
      simp only [List.getElem_map, List.getElem_range, Function.comp, List.getElem_zipIdx, Nat.zero_add]
      rw [← r3 j hj _ _ ha hb, matElem, ravel_unravel (by simp), ravel_unravel (by simp)]

/-- the same matrix as `Hamiltonian(matrices=hs).to_full()` -/
theorem matrix_eq_toFull {ilog : ℕ → ℕ → ℕ} (hlog : ilog 4 2 = 2) {hs : List (ND ℂ)} (hne : hs ≠ []) (hh : ∀ h ∈ hs, h.shape = [4, 4]) :
    ∃ M F, (EdH.terms hs).matrix ilog = .ok M ∧ Ham.toFull ilog (Ham.mk none (some hs) 2) none = .ok F ∧ M ≈ F := by
  obtain ⟨M, m1, m2, m3⟩ := matrix_terms hlog hne hh
  obtain ⟨F, f1, f2, f3⟩ := Ham.toFull_matrices (ilog := ilog) (ms := hs) (k := 2) hne hh hlog none
  refine ⟨M, F, m1, f1, ?_, ?_⟩
  · rw [m2, f2]
    rfl
  · intro idx hidx
    rw [m2] at hidx
    obtain ⟨a, b, rfl⟩ : ∃ a b, idx = [a, b] := by
      match idx, hidx with
      | [a, b], _ => exact ⟨a, b, rfl⟩
    obtain ⟨ha, hb, -⟩ := hidx
    have e := congrFun (congrFun m3 ⟨a, ha⟩) ⟨b, hb⟩
    rw [toM_apply] at e
    have := f3 (unravel (List.replicate (hs.length + 1) 2) a) (unravel (List.replicate (hs.length + 1) 2) b) (InB_unravel (by simpa using ha)) (InB_unravel (by simpa using hb))
    rw [matElem, show hs.length + 2 - 1 = hs.length + 1 by omega, ravel_unravel (by simpa using ha), ravel_unravel (by simpa using hb)] at this
    rw [this]
    exact e

theorem InB_take : ∀ {ds s : List ℕ}, InB ds s → ∀ k, InB (ds.take k) (s.take k)
  | [], [], _, k => by simp
  | _ :: _, _ :: _, h, 0 => by simp
  | _ :: _, _ :: _, h, k + 1 => ⟨h.1, InB_take h.2 k⟩

theorem InB_drop : ∀ {ds s : List ℕ}, InB ds s → ∀ k, InB (ds.drop k) (s.drop k)
  | [], [], _, k => by simp
  | _ :: _, _ :: _, h, 0 => h
  | _ :: _, _ :: _, h, k + 1 => InB_drop h.2 k

theorem blockElem_star {h : ND ℂ} (hh : ∀ a < 4, ∀ b < 4, star (h.val [b, a]) = h.val [a, b]) {L i : ℕ} (hi : i + 2 ≤ L) {s t : List ℕ}
    (hs : InB (List.replicate L 2) s) (ht : InB (List.replicate L 2) t) : star (blockElem 2 h i 2 t s) = blockElem 2 h i 2 s t := by
  have hsl : ∀ {s : List ℕ}, InB (List.replicate L 2) s → ravel (List.replicate 2 2) ((s.drop i).take 2) < 4 := by
    intro s hs
    have : InB (((List.replicate L 2).drop i).take 2) ((s.drop i).take 2) := InB_take (InB_drop hs i) 2
    rw [List.drop_replicate, List.take_replicate, show min 2 (L - i) = 2 by omega] at this
    simpa using ravel_lt this
  unfold blockElem
  by_cases e : s.take i = t.take i ∧ s.drop (i + 2) = t.drop (i + 2)
  · rw [if_pos e, if_pos ⟨e.1.symm, e.2.symm⟩]
    exact hh _ (hsl hs) _ (hsl ht)
  · rw [if_neg e, if_neg (fun h => e ⟨h.1.symm, h.2.symm⟩), star_zero]

/-- Hermitian terms make a Hermitian Hamiltonian -/
theorem chainHam_hermitian {hs : List (ND ℂ)} (hh : ∀ h ∈ hs, ∀ a < 4, ∀ b < 4, star (h.val [b, a]) = h.val [a, b]) :
    (chainHam (hs.length + 1) hs).IsHermitian := by
  ext a b
  rw [conjTranspose_apply, chainHam, Matrix.of_apply, Matrix.of_apply, ← starRingEnd_apply, map_list_sum, List.map_map]
  congr 1
  apply List.map_congr_left
  rintro ⟨h, j⟩ hp
  have := List.mem_zipIdx hp
  simp only [Function.comp, starRingEnd_apply]
  refine blockElem_star (hh h ?_) (by omega) (InB_unravel (by simp)) (InB_unravel (by simp))
  rw [this.2.2]
  exact List.getElem_mem _

/-! ### expectation values -/

theorem block_sum {d L i k : ℕ} (hik : i + k ≤ L) (X : ND ℂ) {s : List ℕ} (hs : InB (List.replicate L d) s) (f : List ℕ → ℂ) :
    sumIdx (List.replicate L d) (fun t => blockElem d X i k s t * f t) =
      sumIdx (List.replicate k d) fun t => X.val [ravel (List.replicate k d) ((s.drop i).take k), ravel (List.replicate k d) t] *
        f (s.take i ++ (t ++ s.drop (i + k))) := by
  have e : List.replicate L d = List.replicate i d ++ (List.replicate k d ++ List.replicate (L - i - k) d) := by
    rw [← List.replicate_add, ← List.replicate_add]
    congr 1
    omega
  rw [e] at hs ⊢
  obtain ⟨s1, s', rfl, h1, hs⟩ := hs.split2
  obtain ⟨s0, s2, rfl, h0, h2⟩ := hs.split2
  have l1 : s1.length = i := by rw [h1.length_eq]; simp
  have l0 : s0.length = k := by rw [h0.length_eq]; simp
  have a1 : (s1 ++ (s0 ++ s2)).take i = s1 := by rw [← l1, List.take_left]
  have a2 : (s1 ++ (s0 ++ s2)).drop (i + k) = s2 := by rw [← l1, ← l0, ← List.drop_drop, List.drop_left, List.drop_left]
  have a3 : ((s1 ++ (s0 ++ s2)).drop i).take k = s0 := by rw [← l1, List.drop_left, ← l0, List.take_left]
  have hb : ∀ u t v, u.length = i → t.length = k → blockElem d X i k (s1 ++ (s0 ++ s2)) (u ++ (t ++ v)) =
      if s1 = u ∧ s2 = v then X.val [ravel (List.replicate k d) s0, ravel (List.replicate k d) t] else 0 := by
    intro u t v hu ht
    have b1 : (u ++ (t ++ v)).take i = u := by rw [← hu, List.take_left]
    have b2 : (u ++ (t ++ v)).drop (i + k) = v := by rw [← hu, ← ht, ← List.drop_drop, List.drop_left, List.drop_left]
    have b3 : ((u ++ (t ++ v)).drop i).take k = t := by rw [← hu, List.drop_left, ← ht, List.take_left]
    rw [blockElem, a1, a2, a3, b1, b2, b3]
  rw [sumIdx_append, a1, a2, a3]
  rw [Spin.sumIdx_single _ _ s1 h1]
  · rw [sumIdx_append]
    refine sumIdx_congr fun t ht => ?_
    rw [Spin.sumIdx_single _ _ s2 h2]
    · rw [hb _ _ _ l1 (by simpa using ht.length_eq), if_pos ⟨rfl, rfl⟩]
    · intro v _ hne
      rw [hb _ _ _ l1 (by simpa using ht.length_eq), if_neg (fun h => hne h.2.symm), zero_mul]
  · intro u hu hne
    rw [sumIdx_append, ← sumIdx_zero (List.replicate k d)]
    refine sumIdx_congr fun t ht => ?_
    rw [← sumIdx_zero (List.replicate (L - i - k) d)]
    refine sumIdx_congr fun v _ => ?_
    rw [hb _ _ _ (by simpa using hu.length_eq) (by simpa using ht.length_eq), if_neg (fun h => hne h.1.symm), zero_mul]

/-- `⟨ψ|H|ψ⟩` of the big matrix is the sum of the expectation values of the two-site terms -/
theorem chainHam_expect {hs : List (ND ℂ)} (As : List (ND ℂ)) :
    ip (stateVec 2 (hs.length + 1) As) ((chainHam (hs.length + 1) hs).mulVec (stateVec 2 (hs.length + 1) As)) =
      ∑ m ∈ range hs.length, opExpect (List.replicate (hs.length + 1) 2) As m 2 (matElem [2, 2] (hs.getD m (onesND []))) := by
  set L := hs.length + 1 with hL
  have e1 : ∀ (g : ℕ → List ℕ → List ℕ → ℂ), (∀ m < hs.length, ∀ s, InB (List.replicate L 2) s →
      sumIdx (List.replicate L 2) (fun t => blockElem 2 (hs.getD m (onesND [])) m 2 s t * psi As t) = sumIdx [2, 2] (g m s)) →
      ip (stateVec 2 L As) ((chainHam L hs).mulVec (stateVec 2 L As)) =
        ∑ m ∈ range hs.length, sumIdx (List.replicate L 2) fun s => star (psi As s) * sumIdx [2, 2] (g m s) := by
    intro g hg
    have hsum : ∀ s, InB (List.replicate L 2) s → sumIdx (List.replicate L 2) (fun t => (hs.zipIdx.map fun p => blockElem 2 p.1 p.2 2 s t).sum * psi As t) =
        ∑ m ∈ range hs.length, sumIdx [2, 2] (g m s) := by
      intro s hs'
      have : ∀ t, (hs.zipIdx.map fun p => blockElem 2 p.1 p.2 2 s t).sum = ∑ m ∈ range hs.length, blockElem 2 (hs.getD m (onesND [])) m 2 s t := by
        intro t
        rw [Finset.sum_range, ← List.sum_ofFn]
        congr 1
        apply List.ext_getElem
        · simp
        · intro j h1 h2
          have hj : j < hs.length := by simpa using h1
          simp [hj]
      simp only [this, sum_mul]
      rw [sumIdx_finset_sum]
      exact sum_congr rfl fun m hm => hg m (by simpa using hm) s hs'
    rw [← sumIdx_finset_sum]
    have : ip (stateVec 2 L As) ((chainHam L hs).mulVec (stateVec 2 L As)) = sumIdx (List.replicate L 2) fun s => star (psi As s) *
        sumIdx (List.replicate L 2) (fun t => (hs.zipIdx.map fun p => blockElem 2 p.1 p.2 2 s t).sum * psi As t) := by
      simp only [sumIdx_eq_flat, List.prod_replicate, Finset.sum_range]
      rfl
    rw [this]
    refine sumIdx_congr fun s hs' => ?_
    rw [hsum s hs', mul_sum]
  rw [e1 _ (fun m hm s hs' => block_sum (d := 2) (L := L) (i := m) (k := 2) (by omega) (hs.getD m (onesND [])) hs' (psi As))]
  refine sum_congr rfl fun m hm => ?_
  have hm : m < hs.length := by simpa using hm
  unfold opExpect
  refine sumIdx_congr fun s hs' => ?_
  rw [List.drop_replicate, List.take_replicate, show min 2 (L - m) = 2 by omega, ← sumIdx_mul_left]
  rfl

theorem evOf_ok {n : ℕ} {op psi : ND ℂ} (ho : op.shape = [n, n]) (hp : psi.shape = [n]) :
    evOf op psi = .ok (ip (toV n psi) ((toM n n op).mulVec (toV n psi))).re := by
  simp only [evOf, vecMat, vdot, ND.conj, hp, ho, ok_bind, if_true]
  congr 2
  simp only [ip, mulVec, dotProduct, toV, toM_apply, Finset.sum_range, sum_mul, mul_sum]
  rw [sum_comm]
  refine sum_congr rfl fun i _ => sum_congr rfl fun j _ => by ring

theorem edEvs_ok {n : ℕ} {hist : List (ND ℂ)} {op : ND ℂ} (ho : op.shape = [n, n]) (hh : ∀ psi ∈ hist, psi.shape = [n]) :
    edEvs hist [op] = .ok (hist.map fun psi => [(ip (toV n psi) ((toM n n op).mulVec (toV n psi))).re]) := by
  unfold edEvs
  refine mapM_ok fun psi hpsi => ?_
  rw [List.mapM_cons, evOf_ok ho (hh psi hpsi)]
  rfl

/-! ### C72 -/

/-- **C72** `edint(T)` with two-site terms on a chain of qubits: `ed_history[k]` is the solution of the Schrödinger equation with
`H = Σ_m h_m` at time `k (T[1] - T[0])`, there is one entry per entry of `T`, and the new `mps` is a normalised chain of left
isometries whose state is the last entry up to a factor. -/
theorem edint_terms {svd : Svd} (hsvd : SVDLaw svd) {ilog : ℕ → ℕ → ℕ} (hlog : ilog 4 2 = 2) {hs : List (ND ℂ)} (hne : hs ≠ [])
    (hh : ∀ h ∈ hs, h.shape = [4, 4]) {x : FMPS ℂ} (hx : x.Holds (List.replicate (hs.length + 1) 2)) (t0 t1 : ℝ) (T : List ℝ) :
    ∃ hist y, ∃ w : ℂ, edint svd ilog (.terms hs) x (t0 :: t1 :: T) = .ok (hist, y) ∧ hist.length = (t0 :: t1 :: T).length ∧
      (∀ k (hk : k < hist.length), (hist[k]).shape = [2 ^ (hs.length + 1)] ∧ toV (2 ^ (hs.length + 1)) hist[k] =
        evolve (chainHam (hs.length + 1) hs) (k * (t1 - t0)) (stateVec 2 (hs.length + 1) x.data)) ∧
      y.Holds (List.replicate (hs.length + 1) 2) ∧ (∀ A ∈ y.data, LeftIso A) ∧
      braket (List.replicate (hs.length + 1) 2) y.data y.data = 1 ∧
      (∀ a, evolve (chainHam (hs.length + 1) hs) ((T.length + 1 : ℕ) * (t1 - t0)) (stateVec 2 (hs.length + 1) x.data) a =
        w * stateVec 2 (hs.length + 1) y.data a) := by
  obtain ⟨M, m1, m2, m3⟩ := matrix_terms hlog hne hh
  rw [← m3]
  exact edint_core hsvd (by omega) (by omega) hx m1 m2 t0 t1 T

/-- **C72** the same for `fullH=True` and any local dimension: the big matrix is used as it is -/
theorem edint_full {svd : Svd} (hsvd : SVDLaw svd) {ilog : ℕ → ℕ → ℕ} {d L : ℕ} (hd : 0 < d) (hL : 0 < L) {x : FMPS ℂ}
    (hx : x.Holds (List.replicate L d)) {M : ND ℂ} (hM : M.shape = [d ^ L, d ^ L]) (t0 t1 : ℝ) (T : List ℝ) :
    ∃ hist y, ∃ w : ℂ, edint svd ilog (.full M) x (t0 :: t1 :: T) = .ok (hist, y) ∧ hist.length = (t0 :: t1 :: T).length ∧
      (∀ k (hk : k < hist.length), (hist[k]).shape = [d ^ L] ∧
        toV (d ^ L) hist[k] = evolve (toM (d ^ L) (d ^ L) M) (k * (t1 - t0)) (stateVec d L x.data)) ∧
      y.Holds (List.replicate L d) ∧ (∀ A ∈ y.data, LeftIso A) ∧ braket (List.replicate L d) y.data y.data = 1 ∧
      (∀ a, evolve (toM (d ^ L) (d ^ L) M) ((T.length + 1 : ℕ) * (t1 - t0)) (stateVec d L x.data) a = w * stateVec d L y.data a) :=
  edint_core hsvd hd hL hx rfl hM t0 t1 T

/-- **C72** for equally spaced times `ed_history[k]` is the state at time `T[k]`, the initial state being that at `T[0]` -/
theorem edint_times {svd : Svd} (hsvd : SVDLaw svd) {ilog : ℕ → ℕ → ℕ} (hlog : ilog 4 2 = 2) {hs : List (ND ℂ)} (hne : hs ≠ [])
    (hh : ∀ h ∈ hs, h.shape = [4, 4]) {x : FMPS ℂ} (hx : x.Holds (List.replicate (hs.length + 1) 2)) {T : List ℝ} (h2 : 2 ≤ T.length)
    {t0 dt : ℝ} (hT : ∀ k (hk : k < T.length), T[k] = t0 + k * dt) :
    ∃ hist y, edint svd ilog (.terms hs) x T = .ok (hist, y) ∧ hist.length = T.length ∧
      ∀ k (hk : k < hist.length) (hk' : k < T.length), toV (2 ^ (hs.length + 1)) hist[k] =
        evolve (chainHam (hs.length + 1) hs) (T[k] - t0) (stateVec 2 (hs.length + 1) x.data) := by
  match T, h2 with
  | t :: t1 :: T, _ =>
    obtain ⟨hist, y, w, e, hl, hk, -⟩ := edint_terms hsvd hlog hne hh hx t t1 T
    refine ⟨hist, y, e, hl, ?_⟩
    intro k h1 h2
    have a0 := hT 0 (by simp)
    have a1 := hT 1 (by simp)
    simp only [List.getElem_cons_zero, List.getElem_cons_succ, Nat.cast_zero, zero_mul, add_zero, Nat.cast_one, one_mul] at a0 a1
    rw [(hk k h1).2, hT k h2]
    congr 1
    rw [a0, a1]
    ring

/-- **C72** for Hermitian terms the norm and the energy of every entry of `ed_history` are those of the initial state:
`ed_energies()` returns the same number, `Σ_m ⟨h_m⟩` in the initial state, at all times. -/
theorem edint_conserves {svd : Svd} (hsvd : SVDLaw svd) {ilog : ℕ → ℕ → ℕ} (hlog : ilog 4 2 = 2) {hs : List (ND ℂ)} (hne : hs ≠ [])
    (hh : ∀ h ∈ hs, h.shape = [4, 4]) (hherm : ∀ h ∈ hs, ∀ a < 4, ∀ b < 4, star (h.val [b, a]) = h.val [a, b])
    {x : FMPS ℂ} (hx : x.Holds (List.replicate (hs.length + 1) 2)) (t0 t1 : ℝ) (T : List ℝ) :
    ∃ hist y, edint svd ilog (.terms hs) x (t0 :: t1 :: T) = .ok (hist, y) ∧
      (∀ psi ∈ hist, ip (toV (2 ^ (hs.length + 1)) psi) (toV (2 ^ (hs.length + 1)) psi) =
        braket (List.replicate (hs.length + 1) 2) x.data x.data) ∧
      edEnergies ilog (.terms hs) hist = .ok (List.replicate (t0 :: t1 :: T).length
        [(∑ m ∈ range hs.length, opExpect (List.replicate (hs.length + 1) 2) x.data m 2 (matElem [2, 2] (hs.getD m (onesND [])))).re]) := by
  obtain ⟨M, m1, m2, m3⟩ := matrix_terms hlog hne hh
  obtain ⟨hist, y, w, e, hl, hk, -⟩ := edint_terms hsvd hlog hne hh hx t0 t1 T
  have hH := chainHam_hermitian hherm
  have hmem : ∀ psi ∈ hist, psi.shape = [2 ^ (hs.length + 1)] ∧ ∃ t, toV (2 ^ (hs.length + 1)) psi =
      evolve (chainHam (hs.length + 1) hs) t (stateVec 2 (hs.length + 1) x.data) := by
    intro psi hpsi
    obtain ⟨k, hk', rfl⟩ := List.mem_iff_getElem.1 hpsi
    exact ⟨(hk k hk').1, _, (hk k hk').2⟩
  refine ⟨hist, y, e, ?_, ?_⟩
  · intro psi hpsi
    obtain ⟨-, t, ht⟩ := hmem psi hpsi
    rw [ht, evolve_ip hH, stateVec_ip]
  · rw [edEnergies, m1, ok_bind, edEvs_ok m2 fun psi hpsi => (hmem psi hpsi).1, ← chainHam_expect]
    congr 1
    rw [← hl, List.eq_replicate_iff]
    refine ⟨by simp, ?_⟩
    intro b hb
    obtain ⟨psi, hpsi, rfl⟩ := List.mem_map.1 hb
    obtain ⟨-, t, ht⟩ := hmem psi hpsi
    rw [m3, ht, evolve_energy hH]

/-- **C72** fewer than two times: `IndexError`, even though no step would be needed -/
theorem edint_short {svd : Svd} {ilog : ℕ → ℕ → ℕ} (hlog : ilog 4 2 = 2) {hs : List (ND ℂ)} (hne : hs ≠ []) (hh : ∀ h ∈ hs, h.shape = [4, 4])
    {x : FMPS ℂ} (hx : x.Holds (List.replicate (hs.length + 1) 2)) {T : List ℝ} (hT : T.length < 2) :
    edint svd ilog (.terms hs) x T = .error .indexError := by
  obtain ⟨R, r1, r2, r3⟩ := FMPS.recombine_amplitudes hx
  obtain ⟨M, m1, -, -⟩ := matrix_terms hlog hne hh
  have hre : R.reshape [R.size] = .ok (R.reshapeR [R.size]) := by simp [ND.reshape]
  rw [edint, r1, ok_bind, hre, ok_bind, m1, ok_bind, pyGet_err (by omega), err_bind]

/-- a chain of one site has an empty list of terms, whose "sum" is a number: `ValueError` -/
theorem edint_noterms {svd : Svd} {ilog : ℕ → ℕ → ℕ} {d L : ℕ} {x : FMPS ℂ} (hx : x.Holds (List.replicate L d)) (t0 t1 : ℝ) (T : List ℝ) :
    edint svd ilog (.terms []) x (t0 :: t1 :: T) = .error .valueError := by
  obtain ⟨R, r1, r2, r3⟩ := FMPS.recombine_amplitudes hx
  have hre : R.reshape [R.size] = .ok (R.reshapeR [R.size]) := by simp [ND.reshape]
  rw [edint, r1, ok_bind, hre, ok_bind]
  simp [EdH.matrix, npSum, edLoop, expmMul, ND.smul]

/-- the exact energy per site is `energy(H)` of the canonicalised chain, for a normalised state -/
theorem edEnergy_eq_energy {svd : Svd} {eig : Eig} (hsvd : SVDLaw svd) (heig : EigOrthoLaw eig) (O : Ncon.SetOrder) {ilog : ℕ → ℕ → ℕ} (hlog : ilog 4 2 = 2)
    {hs : List (ND ℂ)} (hne : hs ≠ [])
    (hh : ∀ h ∈ hs, h.shape = [4, 4]) (hherm : ∀ h ∈ hs, ∀ a < 4, ∀ b < 4, star (h.val [b, a]) = h.val [a, b])
    {x : FMPS ℂ} (hx : x.Holds (List.replicate (hs.length + 1) 2)) (hp : PosDims x.data)
    (hn : braket (List.replicate (hs.length + 1) 2) x.data x.data = 1) (t0 t1 : ℝ) (T : List ℝ) :
    ∃ hist y z Ls, ∃ e : ℝ, edint svd ilog (.terms hs) x (t0 :: t1 :: T) = .ok (hist, y) ∧
      edEnergies ilog (.terms hs) hist = .ok (List.replicate (t0 :: t1 :: T).length [(hs.length + 1 : ℕ) * e]) ∧
      x.leftCanonicalise svd eig none = .ok (z, some Ls) ∧ z.energy O hs = .ok e := by
  obtain ⟨hist, y, e1, -, e2⟩ := edint_conserves hsvd hlog hne hh hherm hx t0 t1 T
  have hnz : ∃ s, InB (List.replicate (hs.length + 1) 2) s ∧ psi x.data s ≠ 0 := by
    by_contra hcon
    push Not at hcon
    have : braket (List.replicate (hs.length + 1) 2) x.data x.data = 0 := by
      rw [braket, ← sumIdx_zero (List.replicate (hs.length + 1) 2)]
      exact sumIdx_congr fun s hs => by rw [hcon s hs, mul_zero]
    rw [this] at hn
    exact zero_ne_one hn
  obtain ⟨z, Ls, z1, -, z2⟩ := FMPS.energy_leftCanonicalise hsvd heig O hx hp hnz (H := hs) (by omega) (by simpa using hh)
  refine ⟨hist, y, z, Ls, _, e1, ?_, z1, z2⟩
  rw [e2, energyPerSite, hn]
  simp only [div_one, List.length_replicate]
  rw [mul_div_cancel₀ _ (by positivity), Complex.re_sum]

/-- **C72** for unequally spaced times `ed_history[k]` is not the state at `T[k]`: one qubit with `H = |0⟩⟨0|`, the state `|0⟩` and
`T = [0, π, 3π]`. -/
theorem edint_uneven {svd : Svd} (hsvd : SVDLaw svd) (ilog : ℕ → ℕ → ℕ) : ∃ (x : FMPS ℂ) (M : ND ℂ) (hist : List (ND ℂ)) (y : FMPS ℂ),
    x.Holds (List.replicate 1 2) ∧ (toM 2 2 M).IsHermitian ∧ edint svd ilog (.full M) x [0, Real.pi, 3 * Real.pi] = .ok (hist, y) ∧
      ∃ h : 2 < hist.length, toV (2 ^ 1) hist[2] ≠ evolve (toM (2 ^ 1) (2 ^ 1) M) (3 * Real.pi - 0) (stateVec 2 1 x.data) := by
  have hx : (exOne [1, 0]).Holds (List.replicate 1 2) := exOne_holds [1, 0]
  set D : Matrix (Fin 2) (Fin 2) ℂ := diagonal ![1, 0] with hD
  have hev : ∀ (t : ℝ), evolve D t (stateVec 2 1 (exOne [1, 0]).data) (0 : Fin 2) = Complex.exp (-(Complex.I * t)) := by
    intro t
    have : (-Complex.I) • ((t : ℂ) • D) = diagonal ![-(Complex.I * t), 0] := by
      ext i j
      fin_cases i <;> fin_cases j <;> simp [hD, Matrix.smul_apply]
    rw [evolve, this, exp_diagonal]
    simp only [mulVec_diagonal, stateVec]
    rw [show unravel (List.replicate 1 2) ((0 : Fin 2) : ℕ) = [0] from rfl, exOne_psi, Pi.coe_exp]
    simp [Complex.exp_eq_exp_ℂ]
  obtain ⟨hist, y, w, e1, hl, hk, -⟩ := edint_full hsvd (ilog := ilog) (d := 2) (L := 1) (by omega) (by omega) hx (M := ofM D) rfl 0 Real.pi [3 * Real.pi]
  refine ⟨exOne [1, 0], ofM D, hist, y, hx, ?_, e1, by simp [hl], ?_⟩
  · rw [toM_ofM, IsHermitian, hD, diagonal_conjTranspose]
    congr 1
    funext i
    fin_cases i <;> simp
  · rw [(hk 2 (by simp [hl])).2]
    intro h
    have := congrFun h (0 : Fin 2)
    have tm : toM (2 ^ 1) (2 ^ 1) (ofM D) = D := toM_ofM D
    rw [tm, hev, hev] at this
    have c1 : Complex.exp (-(Complex.I * (((2 : ℕ) : ℝ) * (Real.pi - 0) : ℝ))) = 1 := by
      rw [show -(Complex.I * (((2 : ℕ) : ℝ) * (Real.pi - 0) : ℝ)) = -(2 * Real.pi * Complex.I) by push_cast; ring, Complex.exp_neg, Complex.exp_two_pi_mul_I, inv_one]
    have c2 : Complex.exp (-(Complex.I * ((3 * Real.pi - 0 : ℝ)))) = -1 := by
      rw [show -(Complex.I * ((3 * Real.pi - 0 : ℝ))) = -(2 * Real.pi * Complex.I) + -(Real.pi * Complex.I) by push_cast; ring, Complex.exp_add,
        Complex.exp_neg, Complex.exp_neg, Complex.exp_two_pi_mul_I, Complex.exp_pi_mul_I]
      norm_num
    rw [c1, c2] at this
    norm_num at this

/-! ### C73 -/

theorem vecMat_ok {n : ℕ} {u A : ND ℂ} (hu : u.shape = [n]) (hA : A.shape = [n, n]) :
    ∃ R, vecMat u A = .ok R ∧ R.shape = [n] ∧ toV n R = vecMul (toV n u) (toM n n A) := by
  refine ⟨_, by simp only [vecMat, hu, hA, if_true]; rfl, rfl, ?_⟩
  funext j
  simp [toV, vecMul, dotProduct, Finset.sum_range]

theorem commND_ok {n : ℕ} {A B : ND ℂ} (hA : A.shape = [n, n]) (hB : B.shape = [n, n]) :
    ∃ R, commND A B = .ok R ∧ R.shape = [n, n] ∧ toM n n R = toM n n A * toM n n B - toM n n B * toM n n A := by
  obtain ⟨X, x1, x2, x3⟩ := matmul22M hA hB
  obtain ⟨Y, y1, y2, y3⟩ := matmul22M hB hA
  refine ⟨⟨[n, n], fun idx => X.val idx - Y.val idx⟩, by simp [commND, x1, y1, ND.zipNd, x2, y2], rfl, ?_⟩
  rw [← x3, ← y3]
  rfl

/-- **C73** `ed_OTOC(T, (V, W))` for Hermitian `H`, `V`, `W`: at every time the squared norm of `[W(t), V] ψ`, `W(t)` the operator in
the Heisenberg picture. -/
theorem edOtoc_spec {d L : ℕ} {x : FMPS ℂ} (hx : x.Holds (List.replicate L d)) {H V W : ND ℂ} (hH : H.shape = [d ^ L, d ^ L])
    (hV : V.shape = [d ^ L, d ^ L]) (hW : W.shape = [d ^ L, d ^ L]) (sH : (toM (d ^ L) (d ^ L) H).IsHermitian)
    (sV : (toM (d ^ L) (d ^ L) V).IsHermitian) (sW : (toM (d ^ L) (d ^ L) W).IsHermitian) {T : List ℝ} (hT : 2 ≤ T.length) :
    edOtoc (.full H) x T V W = .ok (T.map fun t =>
      let C := heisenberg (toM _ _ H) t (toM _ _ W) * toM _ _ V - toM _ _ V * heisenberg (toM _ _ H) t (toM _ _ W)
      (ip (C.mulVec (stateVec d L x.data)) (C.mulVec (stateVec d L x.data))).re) := by
  set n := d ^ L with hn
  obtain ⟨R, r1, r2, r3⟩ := FMPS.recombine_amplitudes hx
  have hsz : R.size = n := by simp [ND.size, r2, hn]
  have hre : R.reshape [R.size] = .ok (R.reshapeR [n]) := by
    rw [ND.reshape, hsz]
    simp
  have h0 : toV n (R.reshapeR [n]) = stateVec d L x.data := by
    funext a
    have : InB (List.replicate L d) (unravel (List.replicate L d) a) := InB_unravel (by simp [← hn])
    simp [toV, ND.reshapeR, stateVec, r2, r3 _ this]
  simp only [edOtoc, r1, ok_bind, hre]
  rw [pyGet_ok (by omega), ok_bind, pyGet_ok (by omega), ok_bind]
  refine mapM_ok fun t _ => ?_
  have e : toM n n ((H.smul (-1 * Complex.I)).smul (t : ℂ)) = (-Complex.I) • ((t : ℂ) • toM n n H) := by
    ext i j
    simp [ND.smul]
    ring
  set U := NormedSpace.exp ((-Complex.I) • ((t : ℂ) • toM n n H)) with hU
  have hUc : Uᴴ = NormedSpace.exp (Complex.I • ((t : ℂ) • toM n n H)) := by
    rw [hU, ← exp_conjTranspose, conjTranspose_smul, conjTranspose_smul, sH.eq]
    simp
  have u1 : expmND ((H.smul (-1 * Complex.I)).smul (t : ℂ)) = .ok (ofM U) := by
    have hs : ((H.smul (-1 * Complex.I)).smul (t : ℂ)).shape = [n, n] := hH
    simp only [expmND, hs, if_true]
    rw [e]
  have u2 : (ofM U).conj.tr.shape = [n, n] := rfl
  have u3 : toM n n (ofM U).conj.tr = Uᴴ := by
    ext i j
    have : (ofM U).conj.tr.val [i.1, j.1] = star ((ofM U).val [j.1, i.1]) := rfl
    rw [toM_apply, this, conjTranspose_apply]
    simp [ofM]
  obtain ⟨a, a1, a2, a3⟩ := matmul22M u2 hW
  obtain ⟨Wt, w1, w2, w3⟩ := matmul22M a2 (show (ofM U).shape = [n, n] from rfl)
  obtain ⟨C, c1, c2, c3⟩ := commND_ok w2 hV
  obtain ⟨p, p1, p2, p3⟩ := vecMat_ok (u := (R.reshapeR [n]).conj) (show (R.reshapeR [n]).conj.shape = [n] from rfl) c2
  obtain ⟨q, q1, q2, q3⟩ := vecMat_ok p2 c2
  have hWt : toM n n Wt = heisenberg (toM n n H) t (toM n n W) := by
    rw [w3, a3, u3, toM_ofM, hUc, heisenberg]
  have hWh : (toM n n Wt)ᴴ = toM n n Wt := by
    rw [w3, a3, u3, toM_ofM, conjTranspose_mul, conjTranspose_mul, conjTranspose_conjTranspose, sW.eq, Matrix.mul_assoc]
  have hC : (toM n n C)ᴴ = -toM n n C := by
    rw [c3, conjTranspose_sub, conjTranspose_mul, conjTranspose_mul, hWh, sV.eq, neg_sub]
  simp only [otocAt, u1, ok_bind, a1, w1, c1, p1, q1]
  have hq : vdot q (R.reshapeR [n]) = .ok (∑ i : Fin n, toV n q i * stateVec d L x.data i) := by
    simp only [vdot, q2, ND.shape_reshapeR, if_true]
    rw [Finset.sum_range, ← h0]
    rfl
  rw [hq, ok_bind]
  congr 1
  rw [← Complex.neg_re]
  congr 1
  rw [← hWt, ← c3, ip_mulVec, hC, q3, p3]
  have hp : toV n (R.reshapeR [n]).conj = star (stateVec d L x.data) := by
    rw [← h0]
    rfl
  rw [hp, show (∑ i : Fin n, vecMul (vecMul (star (stateVec d L x.data)) (toM n n C)) (toM n n C) i * stateVec d L x.data i) =
    vecMul (vecMul (star (stateVec d L x.data)) (toM n n C)) (toM n n C) ⬝ᵥ stateVec d L x.data from rfl,
    ← dotProduct_mulVec, ← dotProduct_mulVec, neg_mulVec, ip]
  simp only [dotProduct, Pi.neg_apply, Pi.star_apply, mul_neg, Finset.sum_neg_distrib]

/-- **C73** the value is never negative, and it vanishes at `t = 0` for commuting `V` and `W` -/
theorem edOtoc_nonneg {d L : ℕ} {x : FMPS ℂ} (hx : x.Holds (List.replicate L d)) {H V W : ND ℂ} (hH : H.shape = [d ^ L, d ^ L])
    (hV : V.shape = [d ^ L, d ^ L]) (hW : W.shape = [d ^ L, d ^ L]) (sH : (toM (d ^ L) (d ^ L) H).IsHermitian)
    (sV : (toM (d ^ L) (d ^ L) V).IsHermitian) (sW : (toM (d ^ L) (d ^ L) W).IsHermitian) {T : List ℝ} (hT : 2 ≤ T.length) :
    ∃ l, edOtoc (.full H) x T V W = .ok l ∧ l.length = T.length ∧ (∀ v ∈ l, 0 ≤ v) ∧
      (toM (d ^ L) (d ^ L) W * toM (d ^ L) (d ^ L) V = toM (d ^ L) (d ^ L) V * toM (d ^ L) (d ^ L) W →
        ∀ k (hk : k < T.length) (hk' : k < l.length), T[k] = 0 → l[k] = 0) := by
  refine ⟨_, edOtoc_spec hx hH hV hW sH sV sW hT, by simp, ?_, ?_⟩
  · intro v hv
    obtain ⟨t, -, rfl⟩ := List.mem_map.1 hv
    simp only [ip, Complex.re_sum]
    refine Finset.sum_nonneg fun i _ => ?_
    rw [Complex.star_def, ← Complex.normSq_eq_conj_mul_self, Complex.ofReal_re]
    exact Complex.normSq_nonneg _
  · intro hc k hk hk' h0
    simp only [List.getElem_map, h0, heisenberg]
    simp [hc, ip]

/-- **C73** a list of terms is refused, and so is a single time, although `T[1] - T[0]` is never used -/
theorem edOtoc_refuses {d L : ℕ} {x : FMPS ℂ} (hx : x.Holds (List.replicate L d)) (H V W : ND ℂ) (hs : List (ND ℂ)) (T : List ℝ) (t : ℝ) :
    edOtoc (.terms hs) x T V W = .error .assertionError ∧ edOtoc (.full H) x [t] V W = .error .indexError := by
  obtain ⟨R, r1, r2, r3⟩ := FMPS.recombine_amplitudes hx
  have hre : R.reshape [R.size] = .ok (R.reshapeR [R.size]) := by simp [ND.reshape]
  refine ⟨rfl, ?_⟩
  simp [edOtoc, r1, hre, pyGet]

/-! ### `mps_list` after `edint` -/

theorem mapM_length {α β : Type} {f : α → Py β} : ∀ {l : List α} {m : List β}, l.mapM f = .ok m → m.length = l.length
  | [], m, h => by cases h; rfl
  | a :: l, m, h => by
    rw [List.mapM_cons] at h
    obtain ⟨b, -, h⟩ := bind_eq_ok h
    obtain ⟨bs, h2, h⟩ := bind_eq_ok h
    cases h
    simp [mapM_length h2]

/-- **C35** after `edint` on a fresh trajectory `mps_list()` returns at most one state, however many times were integrated: `Ds` still
has one entry, and the histories are zipped with it. -/
theorem mpsListEd_length {svd : Svd} {canon : FMPS ℂ → Py (FMPS ℂ)} {x : FMPS ℂ} {mps : FMPS ℂ} {ed : List (ND ℂ)} {hist : List (List ℝ)} {l : List (FMPS ℂ)}
    (h : mpsListEd svd canon { Traj.new x with mps := mps } ed = .ok (hist, l)) : hist.length = ed.length ∧ l.length = min 1 ed.length := by
  unfold mpsListEd at h
  obtain ⟨hi, h1, h⟩ := bind_eq_ok h
  obtain ⟨l', h2, h⟩ := bind_eq_ok h
  cases h
  have e1 := mapM_length h1
  refine ⟨e1, ?_⟩
  unfold mpsList at h2
  obtain ⟨_, -, h2⟩ := bind_eq_ok h2
  rw [mapM_length h2]
  simp [Traj.new, e1]

/-! ### concrete cases -/

/-- `X ⊗ X` -/
def exXX : ND ℂ := ⟨[4, 4], fun
  | [a, b] => if a + b = 3 then 1 else 0
  | _ => 0⟩

theorem exXX_herm : ∀ h ∈ [exXX], ∀ a < 4, ∀ b < 4, star (h.val [b, a]) = h.val [a, b] := by
  intro h hh a _ b _
  obtain rfl : h = exXX := by simpa using hh
  simp only [exXX, add_comm b a]
  split <;> simp

theorem exTwo_braket : braket (List.replicate 2 2) (exTwo (1 / 2)).data (exTwo (1 / 2)).data = 1 := by
  simp [braket, psi, exTwo, exData, pathProd, ND.dim, Finset.sum_range_succ, List.replicate]
  rw [Complex.conj_ofNat 2]
  ring_nf
  rw [Complex.I_sq]
  norm_num

example {svd : Svd} (hsvd : SVDLaw svd) := edint_terms hsvd (ilog := fun _ _ => 2) rfl (hs := [exXX]) (by simp) (by simp [exXX]) (exTwo_holds 2) 0 1 [2, 3]
example {svd : Svd} (hsvd : SVDLaw svd) := edint_full hsvd (ilog := fun _ _ => 2) (by omega) (by omega) (exTwo_holds 2) (M := exXX) rfl 0 1 [2, 3]
example {svd : Svd} (hsvd : SVDLaw svd) := edint_times hsvd (ilog := fun _ _ => 2) rfl (hs := [exXX]) (by simp) (by simp [exXX]) (exTwo_holds 2) (T := [1, 3, 5]) (by simp)
  (t0 := 1) (dt := 2) (by
    intro k hk
    match k, hk with
    | 0, _ => norm_num
    | 1, _ => norm_num
    | 2, _ => norm_num)
example {svd : Svd} (hsvd : SVDLaw svd) := edint_conserves hsvd (ilog := fun _ _ => 2) rfl (hs := [exXX]) (by simp) (by simp [exXX]) exXX_herm (exTwo_holds 2) 0 1 [2, 3]
example {svd : Svd} {eig : Eig} (hsvd : SVDLaw svd) (heig : EigOrthoLaw eig) (O : Ncon.SetOrder) :=
  edEnergy_eq_energy hsvd heig O (ilog := fun _ _ => 2) rfl (hs := [exXX]) (by simp) (by simp [exXX]) exXX_herm (exTwo_holds (1 / 2)) (exTwo_pos _) exTwo_braket 0 1 [2, 3]
example {svd : Svd} := edint_short (svd := svd) (ilog := fun _ _ => 2) rfl (hs := [exXX]) (by simp) (by simp [exXX]) (exTwo_holds 2) (T := [1]) (by simp)
example {svd : Svd} (ilog : ℕ → ℕ → ℕ) := edint_noterms (svd := svd) (ilog := ilog) (d := 2) (L := 1) (exOne_holds [1, 0]) 0 1 [2]
example := edOtoc_nonneg (exTwo_holds 2) (H := exXX) (V := exXX) (W := exXX) rfl rfl rfl
  (by ext a b; exact exXX_herm exXX (by simp) a a.2 b b.2) (by ext a b; exact exXX_herm exXX (by simp) a a.2 b b.2)
  (by ext a b; exact exXX_herm exXX (by simp) a a.2 b b.2) (T := [0, 1, 5]) (by simp)

end Xmps.Tdvp
