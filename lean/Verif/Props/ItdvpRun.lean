import Verif.Model.ItdvpRun
import Verif.Props.FindGround
import Verif.Props.ImpsFile
import Verif.Props.ImpsOverlap

/-!
# C129: `eulerint`, `rk4int` and `loschmidts` of `iTDVP.py`

Specification: the states `f 0, f 1, …` with `f (k + 1)` one step after `f k`; `SameInf`, equality of infinite states.
-/

namespace Xmps.ITdvp

open Finset Matrix Spec IMPS ImpsCore ComplexOrder Xmps.Ncon

variable {chol inv null : ND ℂ → Py (ND ℂ)} {svd : ND ℂ → Py (ND ℂ × List ℝ × ND ℂ)} {O : SetOrder}
  {eigs : ND ℂ → Py (ℝ × ND ℂ × ND ℂ)} {root : (ND ℂ → Py (ND ℂ)) → ℕ → Py (ND ℂ)} {h : ND ℂ} {d D : ℕ}
  {arn : (ND ℂ → Py (ND ℂ)) → ℕ → Py (ℂ × ND ℂ)} {step : IMPS → ℂ → Py IMPS}

/-! ### storing and reading back -/

theorem goodCell_one {A : ND ℂ} (hA : A.shape = [d, D, D]) : GoodCell ⟨[A], 1, A.dim 0, bond A⟩ := by
  refine ⟨by simp, rfl, ?_⟩
  intro B hB
  rw [List.mem_singleton] at hB
  subst hB
  simp [ND.dim, bond, hA]

theorem dims_eq {A : ND ℂ} (hA : A.shape = [d, D, D]) : A.dim 0 = d ∧ bond A = D := by simp [ND.dim, bond, hA]

/-- a stored state is read back as it was -/
theorem store_ok (r : Run) {x : IMPS} (hA : x.A.shape = [d, D, D]) :
    ∃ v A, r.store x = .ok ⟨r.A, r.Ds ++ [D], r.history ++ [v]⟩ ∧ reload v d D = .ok A ∧ A ≈ x.A := by
  obtain ⟨h0, h1⟩ := dims_eq hA
  obtain ⟨v, y, e1, -, e2, e3, -⟩ := Cell.deserializeReal_serializeReal (goodCell_one hA)
  dsimp only at e2 e3
  rw [h0, h1] at e2
  obtain ⟨data, p, d', D'⟩ := y
  dsimp only at e3
  obtain ⟨A, l, hAA, hl, rfl⟩ := List.forall₂_cons_right_iff.1 e3
  rw [List.forall₂_nil_right_iff] at hl
  subst hl
  refine ⟨v, A, ?_, ?_, hAA⟩
  · unfold Run.store
    rw [e1, ok_bind, h1]
  · unfold reload
    rw [e2, ok_bind]
    rfl

theorem zip_shape {A B C : ND ℂ} {f : ℂ → ℂ → ℂ} (e : A.zipNd f B = .ok C) : C.shape = A.shape ∧ B.shape = A.shape := by
  unfold ND.zipNd at e
  split_ifs at e with hs
  · simp only [Except.ok.injEq] at e
    subst e
    exact ⟨rfl, hs.symm⟩

/-- a step ends with `left_canonicalise` of a tensor of the same shape -/
def Canonical (eigs : ND ℂ → Py (ℝ × ND ℂ × ND ℂ)) (chol : ND ℂ → Py (ND ℂ)) (svd : ND ℂ → Py (ND ℂ × List ℝ × ND ℂ))
    (inv : ND ℂ → Py (ND ℂ)) (step : IMPS → ℂ → Py IMPS) : Prop :=
  ∀ x y dt, step x dt = .ok y → ∃ B : ND ℂ, B.shape = x.A.shape ∧ canonicalise eigs chol svd inv ⟨B, none, none, none⟩ .l = .ok y

theorem euler_canonical : Canonical eigs chol svd inv (euler chol inv null svd O eigs root h) := by
  intro x y dt e
  unfold euler at e
  obtain ⟨g, -, e⟩ := bind_eq_ok e
  obtain ⟨B, e2, e⟩ := bind_eq_ok e
  exact ⟨B, (zip_shape e2).1, e⟩

theorem rk4_canonical : Canonical eigs chol svd inv (rk4 chol inv null svd O eigs root h) := by
  intro x y dt e
  unfold rk4 at e
  obtain ⟨k1, -, e⟩ := bind_eq_ok e
  obtain ⟨k2, -, e⟩ := bind_eq_ok e
  obtain ⟨k3, -, e⟩ := bind_eq_ok e
  dsimp only at e
  obtain ⟨k4, -, e⟩ := bind_eq_ok e
  obtain ⟨s1, -, e⟩ := bind_eq_ok e
  obtain ⟨s2, -, e⟩ := bind_eq_ok e
  obtain ⟨s3, -, e⟩ := bind_eq_ok e
  obtain ⟨B, e2, e⟩ := bind_eq_ok e
  exact ⟨B, (zip_shape e2).1, e⟩

/-- the states of a run of `n` steps of size `dt` and the entries it adds to the history: `vs k` reads back as `f k` -/
structure Spec.Records (step : IMPS → ℂ → Py IMPS) (D : ℕ) (dt : ℂ) (f : ℕ → IMPS) (vs : List (List ℝ)) : Prop where
  next : ∀ k < vs.length, step (f k) dt = .ok (f (k + 1))
  canon : ∀ k ≤ vs.length, IMPS.Spec.LeftCanon D (f k)
  reads : ∀ k (hk : k < vs.length), ∃ A, reload vs[k] 2 D = .ok A ∧ A ≈ (f k).A

theorem intLoop_trace (hchol : CholLaw chol) (hsvd : SVDLaw svd) (hinv : InvLaw inv) (hfix : FixLaw eigs) (hD : 0 < D)
    (hs : Canonical eigs chol svd inv step) {T : List ℂ} {t0 t1 : ℂ} (h0 : pyGet T 0 = .ok t0) (h1 : pyGet T 1 = .ok t1) :
    ∀ (n : ℕ) (x : IMPS) (r r' : Run), IMPS.Spec.LeftCanon D x → intLoop step T n x r = .ok r' →
    ∃ f vs, f 0 = x ∧ vs.length = n ∧ r' = ⟨r.A, r.Ds ++ List.replicate n D, r.history ++ vs⟩ ∧ Spec.Records step D (t1 - t0) f vs
  | 0, x, r, r', hx, e => by
    unfold intLoop at e
    cases e
    refine ⟨fun _ => x, [], rfl, rfl, by simp, by simp, ?_, by simp⟩
    intro k _
    exact hx
  | n + 1, x, r, r', hx, e => by
    unfold intLoop at e
    rw [h1, ok_bind, h0, ok_bind] at e
    obtain ⟨v, A, e1, e2, e3⟩ := store_ok r hx.shape
    rw [e1, ok_bind] at e
    obtain ⟨y, ey, e⟩ := bind_eq_ok e
    obtain ⟨B, hB, eB⟩ := hs _ _ _ ey
    obtain ⟨a1, a2, a3⟩ := canon_fixed hchol hsvd hinv hfix hD (hB.trans hx.shape) eB
    obtain ⟨f, vs, hf, hl, hr, ht⟩ := intLoop_trace hchol hsvd hinv hfix hD hs h0 h1 n y _ r' ⟨a1, a2, a3⟩ e
    refine ⟨fun k => Nat.casesOn k x f, v :: vs, rfl, by simp [hl], ?_, ?_, ?_, ?_⟩
    · rw [hr]
      simp [List.replicate_succ]
    · rintro (_ | k) hk
      · simpa [hf] using ey
      · exact ht.next k (by simpa using hk)
    · rintro (_ | k) hk
      · exact hx
      · exact ht.canon k (by simpa using hk)
    · rintro (_ | k) hk
      · exact ⟨A, e2, e3⟩
      · exact ht.reads k (by simpa using hk)

theorem pyGetI_last {α : Type} (l : List α) (v : α) : pyGetI (l ++ [v]) (-1) = .ok v := by
  unfold pyGetI
  rw [if_neg (by omega), if_pos (by simp)]
  have : ((-1 : ℤ) + ((l ++ [v]).length : ℕ)).toNat = l.length := by simp
  rw [this]
  simp [pyGet]

/-- `eulerint(T)` and `rk4int(T)` for at least two times -/
theorem integrate_spec (hchol : CholLaw chol) (hsvd : SVDLaw svd) (hinv : InvLaw inv) (hfix : FixLaw eigs) (hD : 0 < D)
    (hs : Canonical eigs chol svd inv step) {t0 t1 : ℂ} {ts : List ℂ} {r r' : Run} (hA : r.A.shape = [2, D, D])
    (e : integrate chol inv svd eigs step r (t0 :: t1 :: ts) = .ok r') :
    ∃ f vs, canonicalise eigs chol svd inv ⟨r.A, none, none, none⟩ .l = .ok (f 0) ∧ Spec.Records step D (t1 - t0) f vs ∧ vs.length = ts.length + 2 ∧
      r'.history = r.history ++ vs ∧ r'.Ds = r.Ds ++ List.replicate (ts.length + 2) D ∧ r'.A ≈ (f (ts.length + 1)).A := by
  unfold integrate at e
  obtain ⟨x, e0, e⟩ := bind_eq_ok e
  obtain ⟨a1, a2, a3⟩ := canon_fixed hchol hsvd hinv hfix hD hA e0
  obtain ⟨r1, e1, e⟩ := bind_eq_ok e
  obtain ⟨f, vs, hf, hl, rfl, ht⟩ := intLoop_trace hchol hsvd hinv hfix hD hs (T := t0 :: t1 :: ts) rfl rfl _ _ _ _ ⟨a1, a2, a3⟩ e1
  obtain ⟨v, e2, e⟩ := bind_eq_ok e
  obtain ⟨A, e3, e⟩ := bind_eq_ok e
  cases e
  have hl' : vs.length = ts.length + 2 := by simpa using hl
  have hne : vs ≠ [] := by
    intro hv
    rw [hv] at hl'
    simp at hl'
  have hlast : vs = vs.dropLast ++ [vs[ts.length + 1]] := by
    conv_lhs => rw [← List.dropLast_append_getLast hne]
    rw [List.getLast_eq_getElem]
    simp only [hl', Nat.add_sub_cancel, show ts.length + 2 - 1 = ts.length + 1 from rfl]
  have hv : v = vs[ts.length + 1] := by
    have : r.history ++ vs = (r.history ++ vs.dropLast) ++ [vs[ts.length + 1]] := by
      rw [List.append_assoc, ← hlast]
    dsimp only at e2
    rw [this, pyGetI_last] at e2
    exact (Except.ok.inj e2).symm
  obtain ⟨B, b1, b2⟩ := ht.reads (ts.length + 1) (by omega)
  obtain ⟨h0, h1⟩ := dims_eq a1
  rw [h0, h1, hv, b1] at e3
  cases e3
  refine ⟨f, vs, by rw [hf]; exact e0, ht, hl', rfl, ?_, b2⟩
  simp

/-- **C129**: whenever `eulerint(T)` returns for two or more times `T`, it has gone through the states `f 0` (the state of the trajectory made left
canonical), `f 1`, …, each of them left canonical and got from the one before by an Euler step of size `T[1] - T[0]` along the result of `dA_dt`, which is
orthogonal to the tensor.  The entry the run adds to the history for the `k`-th time reads back as `f k`, and the state of the trajectory is that of the last
time, `f (len(T) - 1)`; the step after it is taken and dropped. -/
theorem eulerint_spec (hchol : CholTriLaw chol) (hsvd : SVDLaw svd) (hinv : InvLaw inv) (hnull : NullLaw null) (hfix : FixLaw eigs)
    (hroot : RootLaw root) (hD : 0 < D) (hh : h.shape = [4, 4]) {t0 t1 : ℂ} {ts : List ℂ} {r r' : Run} (hA : r.A.shape = [2, D, D])
    (e : eulerint chol inv null svd O eigs root h r (t0 :: t1 :: ts) = .ok r') :
    ∃ f vs, canonicalise eigs chol svd inv ⟨r.A, none, none, none⟩ .l = .ok (f 0) ∧
      Spec.Records (euler chol inv null svd O eigs root h) D (t1 - t0) f vs ∧ vs.length = ts.length + 2 ∧
      r'.history = r.history ++ vs ∧ r'.Ds = r.Ds ++ List.replicate (ts.length + 2) D ∧ r'.A ≈ (f (ts.length + 1)).A ∧
      ∀ k < ts.length + 2, ∃ g, dAdt chol inv null O eigs root (f k) h = .ok g ∧
        (∑ s ∈ range 2, (toM3 D D (f k).A s)ᴴ * toM3 D D g s = 0) ∧
        canonicalise eigs chol svd inv ⟨⟨[2, D, D], fun idx => (f k).A.val idx + (t1 - t0) * g.val idx⟩, none, none, none⟩ .l = .ok (f (k + 1)) := by
  obtain ⟨f, vs, a1, a2, a3, a4, a5, a6⟩ := integrate_spec (cholTri_chol hchol) hsvd hinv hfix hD euler_canonical hA e
  refine ⟨f, vs, a1, a2, a3, a4, a5, a6, fun k hk => ?_⟩
  have e1 := a2.next k (by omega)
  have hc := a2.canon k (by omega)
  unfold euler at e1
  obtain ⟨g, eg, e1⟩ := bind_eq_ok e1
  obtain ⟨B, eB, e1⟩ := bind_eq_ok e1
  obtain ⟨-, -, p, hp⟩ := eAttr_of_dAdt eg
  obtain ⟨g', eg', sg, h2, -⟩ := leftCanon_round hchol hinv hnull hfix hroot hD hh hc hp (O := O)
  rw [eg] at eg'
  cases eg'
  refine ⟨g, eg, h2, ?_⟩
  have : B = ⟨[2, D, D], fun idx => (f k).A.val idx + (t1 - t0) * g.val idx⟩ := by
    unfold ND.zipNd at eB
    rw [if_pos (by rw [hc.shape]; exact sg.symm), hc.shape] at eB
    exact (Except.ok.inj eB).symm
  rw [← this]
  exact e1

/-- the step of the Runge-Kutta scheme the code has: the classical one, but for a factor `dt` too many on the third slope, both in the point where the
fourth slope is taken and in the sum.  `field` is the vector field, `fin` what is done to the tensor at the end. -/
def Spec.Rk4Step (field : ND ℂ → Py (ND ℂ)) (fin : ND ℂ → Py IMPS) (A : ND ℂ) (k1 : ND ℂ) (dt : ℂ) (y : IMPS) : Prop :=
  ∃ k2 k3 k4 : ND ℂ, field ⟨A.shape, fun idx => A.val idx + dt / 2 * k1.val idx⟩ = .ok k2 ∧
    field ⟨A.shape, fun idx => A.val idx + dt / 2 * k2.val idx⟩ = .ok k3 ∧
    field ⟨A.shape, fun idx => A.val idx + dt ^ 2 * k3.val idx⟩ = .ok k4 ∧
    fin ⟨A.shape, fun idx => A.val idx + dt / 6 * (k1.val idx + 2 * k2.val idx + 2 * dt * k3.val idx + k4.val idx)⟩ = .ok y

theorem zip_val {A B C : ND ℂ} {f : ℂ → ℂ → ℂ} (e : A.zipNd f B = .ok C) : C = ⟨A.shape, fun idx => f (A.val idx) (B.val idx)⟩ := by
  unfold ND.zipNd at e
  split_ifs at e with hs
  · exact (Except.ok.inj e).symm

theorem rk4_step {x y : IMPS} {dt : ℂ} (e : rk4 chol inv null svd O eigs root h x dt = .ok y) :
    ∃ k1, dAdt chol inv null O eigs root x h = .ok k1 ∧
      Spec.Rk4Step (fun B => dAdt chol inv null O eigs root ⟨B, none, none, none⟩ h) (fun B => canonicalise eigs chol svd inv ⟨B, none, none, none⟩ .l)
        x.A k1 dt y := by
  unfold rk4 slope at e
  obtain ⟨k1, e1, e⟩ := bind_eq_ok e
  obtain ⟨k2, e2, e⟩ := bind_eq_ok e
  obtain ⟨k3, e3, e⟩ := bind_eq_ok e
  dsimp only at e
  obtain ⟨k4, e4, e⟩ := bind_eq_ok e
  obtain ⟨s1, h1, e⟩ := bind_eq_ok e
  obtain ⟨s2, h2, e⟩ := bind_eq_ok e
  obtain ⟨s3, h3, e⟩ := bind_eq_ok e
  obtain ⟨B, h4, e⟩ := bind_eq_ok e
  obtain ⟨B2, g2, e2⟩ := bind_eq_ok e2
  obtain ⟨B3, g3, e3⟩ := bind_eq_ok e3
  obtain ⟨B4, g4, e4⟩ := bind_eq_ok e4
  rw [zip_val g2] at e2
  rw [zip_val g3] at e3
  rw [zip_val g4] at e4
  rw [zip_val h4, zip_val h3, zip_val h2, zip_val h1] at e
  refine ⟨k1, e1, k2, k3, k4, ?_, ?_, ?_, ?_⟩
  · rw [← e2]
    refine congrArg (fun v => dAdt chol inv null O eigs root ⟨⟨x.A.shape, v⟩, none, none, none⟩ h) (funext fun idx => ?_)
    simp only [ND.smul]
    ring
  · rw [← e3]
    refine congrArg (fun v => dAdt chol inv null O eigs root ⟨⟨x.A.shape, v⟩, none, none, none⟩ h) (funext fun idx => ?_)
    simp only [ND.smul]
    ring
  · rw [← e4]
    refine congrArg (fun v => dAdt chol inv null O eigs root ⟨⟨x.A.shape, v⟩, none, none, none⟩ h) (funext fun idx => ?_)
    simp only [ND.smul]
    ring
  · rw [← e]
    refine congrArg (fun v => canonicalise eigs chol svd inv ⟨⟨x.A.shape, v⟩, none, none, none⟩ .l) (funext fun idx => ?_)
    simp only [ND.smul]
    ring

/-- the same for `rk4int`: the states differ by `rk4` steps of size `T[1] - T[0]`, each of them `Rk4Step` along `dA_dt` -/
theorem rk4int_spec (hchol : CholLaw chol) (hsvd : SVDLaw svd) (hinv : InvLaw inv) (hfix : FixLaw eigs) (hD : 0 < D)
    {t0 t1 : ℂ} {ts : List ℂ} {r r' : Run} (hA : r.A.shape = [2, D, D])
    (e : rk4int chol inv null svd O eigs root h r (t0 :: t1 :: ts) = .ok r') :
    ∃ f vs, canonicalise eigs chol svd inv ⟨r.A, none, none, none⟩ .l = .ok (f 0) ∧
      Spec.Records (rk4 chol inv null svd O eigs root h) D (t1 - t0) f vs ∧ vs.length = ts.length + 2 ∧
      r'.history = r.history ++ vs ∧ r'.Ds = r.Ds ++ List.replicate (ts.length + 2) D ∧ r'.A ≈ (f (ts.length + 1)).A ∧
      ∀ k < ts.length + 2, ∃ k1, dAdt chol inv null O eigs root (f k) h = .ok k1 ∧
        Spec.Rk4Step (fun B => dAdt chol inv null O eigs root ⟨B, none, none, none⟩ h)
          (fun B => canonicalise eigs chol svd inv ⟨B, none, none, none⟩ .l) (f k).A k1 (t1 - t0) (f (k + 1)) := by
  obtain ⟨f, vs, a1, a2, a3, a4, a5, a6⟩ := integrate_spec hchol hsvd hinv hfix hD rk4_canonical hA e
  exact ⟨f, vs, a1, a2, a3, a4, a5, a6, fun k hk => rk4_step (a2.next k (by omega))⟩

/-- violated for fewer times: one time is an `IndexError` (`T[1]`), and so is no time on a new trajectory -/
theorem integrate_short {r : Run} {x : IMPS} (e0 : canonicalise eigs chol svd inv ⟨r.A, none, none, none⟩ .l = .ok x) (t : ℂ) :
    integrate chol inv svd eigs step r [t] = .error .indexError ∧
      (r.history = [] → integrate chol inv svd eigs step r [] = .error .indexError) := by
  constructor
  · unfold integrate
    rw [e0, ok_bind]
    rfl
  · intro hr
    unfold integrate
    rw [e0, ok_bind]
    show (Except.ok r >>= _) = _
    rw [ok_bind, hr]
    rfl

theorem intLoop_times {T T' : List ℂ} (h0 : pyGet T 0 = pyGet T' 0) (h1 : pyGet T 1 = pyGet T' 1) :
    ∀ (n : ℕ) (x : IMPS) (r : Run), intLoop step T n x r = intLoop step T' n x r
  | 0, x, r => rfl
  | n + 1, x, r => by
    unfold intLoop
    rw [h0, h1]
    simp only [intLoop_times h0 h1 n]

/-- violated for times that are not equally spaced: apart from the first two, only their number matters -/
theorem integrate_times (r : Run) (t0 t1 : ℂ) {ts ts' : List ℂ} (hl : ts.length = ts'.length) :
    integrate chol inv svd eigs step r (t0 :: t1 :: ts) = integrate chol inv svd eigs step r (t0 :: t1 :: ts') := by
  unfold integrate
  simp only [List.length_cons, hl, intLoop_times (T := t0 :: t1 :: ts) (T' := t0 :: t1 :: ts') rfl rfl]

/-! ### `loschmidts` -/

theorem sameInf_of_eqv {A B : ND ℂ} (hA : A.shape = [d, D, D]) (e : A ≈ B) : SameInf d D A B := by
  refine ⟨1, 1, 1, by simp, one_ne_zero, fun s hs => ?_⟩
  rw [one_smul, Matrix.one_mul, Matrix.mul_one]
  ext i j
  exact (e.2 [s, i, j] (by rw [hA]; exact ⟨hs, i.2, j.2, trivial⟩)).symm

theorem rate_facts {o : ℝ} (h0 : 0 ≤ o) (h1 : o ≤ 1) : 0 ≤ rate o ∧ (rate o = 0 ↔ o = 1) := by
  unfold rate
  split_ifs with h
  · subst h
    simp
  · have hp : 0 < o := lt_of_le_of_ne h0 (Ne.symm h)
    rw [abs_of_pos hp]
    refine ⟨?_, ?_⟩
    · have : 0 ≤ -Real.log o := by linarith [Real.log_nonpos h0 h1]
      exact_mod_cast this
    · rw [show ((0 : WithTop ℝ)) = ((0 : ℝ) : WithTop ℝ) from rfl, WithTop.coe_eq_coe, neg_eq_zero]
      constructor
      · intro hl
        rcases Real.log_eq_zero.1 hl with h' | h' | h'
        · exact absurd h' h
        · exact h'
        · linarith
      · rintro rfl
        exact Real.log_one

theorem losLoop_spec (hchol : CholLaw chol) (hsvd : SVDLaw svd) (hinv : InvLaw inv) (hfix : FixLaw eigs) (harn : LeadingLaw arn) (hD : 1 < D) {A0 : ND ℂ} :
    ∀ (l : List (ℕ × List ℝ)) (m : IMPS) (rs : List (Option (WithTop ℝ))), m.A.shape = [2, D, D] → SameInf 2 D A0 m.A →
    (∀ p ∈ l, ∃ A, reload p.2 2 p.1 = .ok A ∧ A.shape = [2, D, D]) → losLoop chol inv svd eigs arn 2 m l = .ok rs →
    rs.length = l.length ∧ ∀ k (hk : k < l.length) (hk' : k < rs.length), ∃ A, reload l[k].2 2 l[k].1 = .ok A ∧
      ∀ v, rs[k] = some v → 0 ≤ v ∧ (v = 0 ↔ SameInf 2 D A A0)
  | [], m, rs, hm, hs, hl, e => by
    unfold losLoop at e
    cases e
    simp
  | (D', w) :: l, m, rs, hm, hs, hl, e => by
    unfold losLoop at e
    obtain ⟨A, eA, hA⟩ := hl (D', w) (by simp)
    dsimp only at eA
    rw [eA, ok_bind] at e
    obtain ⟨⟨x', m', o⟩, eo, e⟩ := bind_eq_ok e
    dsimp only at e
    obtain ⟨rs', er, e⟩ := bind_eq_ok e
    cases e
    have eo' := eo
    unfold overlap at eo'
    obtain ⟨x1, c1, eo'⟩ := bind_eq_ok eo'
    obtain ⟨m1, c2, -⟩ := bind_eq_ok eo'
    have f1 : ∃ q, eigs A = .ok q := by
      unfold canonicalise vidalPair at c1
      obtain ⟨v1, c1, -⟩ := bind_eq_ok c1
      obtain ⟨q, c1, -⟩ := bind_eq_ok c1
      exact ⟨q, c1⟩
    have f2 : ∃ q, eigs m.A = .ok q := by
      unfold canonicalise vidalPair at c2
      obtain ⟨v1, c2, -⟩ := bind_eq_ok c2
      obtain ⟨q, c2, -⟩ := bind_eq_ok c2
      exact ⟨q, c2⟩
    obtain ⟨⟨eta, L, R⟩, f1⟩ := f1
    obtain ⟨⟨eta', L', R'⟩, f2⟩ := f2
    obtain ⟨g1, -, -, -⟩ := hfix A 2 D eta L R hA f1
    obtain ⟨g2, -, s2, -⟩ := hfix m.A 2 D eta' L' R' hm f2
    obtain ⟨x2, m2, o2, k1, k2, k3, k4, k5, k6⟩ := overlap_spec hchol hsvd hinv harn hD (x := ⟨A, none, none, none⟩) f1 g1 f2 g2
    rw [eo] at k1
    cases k1
    have hm' : m'.A.shape = [2, D, D] := by
      obtain ⟨y', L, lam, e3, h1, -⟩ := canonicalise_left hchol hsvd hinv (by omega : 0 < D) f2 g2
      unfold overlap at eo
      rw [c1, ok_bind, e3, ok_bind] at eo
      obtain ⟨p, -, eo⟩ := bind_eq_ok eo
      cases eo
      exact h1
    obtain ⟨i1, i2⟩ := losLoop_spec hchol hsvd hinv hfix harn hD l m' rs' hm' (sameInf_trans hs k5) (fun p hp => hl p (by simp [hp])) er
    refine ⟨by simp [i1], ?_⟩
    rintro (_ | k) hk hk'
    · refine ⟨A, eA, fun v hv => ?_⟩
      cases o with
      | none => cases hv
      | some o =>
        obtain ⟨j1, j2, j3⟩ := k6 o rfl
        have hv' : rate o = v := by simpa using hv
        obtain ⟨q1, q2⟩ := rate_facts j1 j2
        rw [← hv']
        refine ⟨q1, q2.trans ((j3 s2).trans ⟨fun hh => sameInf_trans hh (sameInf_symm hs), fun hh => sameInf_trans hh hs⟩)⟩
    · simpa using i2 k (by simpa using hk) (by simpa using hk')

/-- **C129**: after `eulerint` (or `rk4int`) on a new trajectory `loschmidts` returns one number per time: each is nan or the rate of the overlap of that
state with the first one, never negative, and zero exactly for the same infinite state; the first one is zero unless it is nan. -/
theorem loschmidts_spec (hchol : CholLaw chol) (hsvd : SVDLaw svd) (hinv : InvLaw inv) (hfix : FixLaw eigs) (harn : LeadingLaw arn) (hD : 1 < D)
    (hs : Canonical eigs chol svd inv step) {t0 t1 : ℂ} {ts : List ℂ} {A0 : ND ℂ} {r : Run} (hA : A0.shape = [2, D, D])
    (e : integrate chol inv svd eigs step (Run.start A0) (t0 :: t1 :: ts) = .ok r) {rs : List (Option (WithTop ℝ))}
    (el : loschmidts chol inv svd eigs arn r = .ok rs) :
    rs.length = ts.length + 2 ∧ ∃ f vs, canonicalise eigs chol svd inv ⟨A0, none, none, none⟩ .l = .ok (f 0) ∧ Spec.Records step D (t1 - t0) f vs ∧
      vs.length = ts.length + 2 ∧ ∀ k v, rs[k]? = some (some v) → 0 ≤ v ∧ (v = 0 ↔ SameInf 2 D (f k).A (f 0).A) ∧ (k = 0 → v = 0) := by
  obtain ⟨f, vs, a1, a2, a3, a4, a5, a6⟩ := integrate_spec hchol hsvd hinv hfix (by omega) hs (r := Run.start A0) hA e
  have hsh : r.A.shape = [2, D, D] := a6.1.trans (a2.canon _ (by omega)).shape
  have hb : bond A0 = D := (dims_eq hA).2
  have a4' : r.history = vs := a4
  have a5' : r.Ds = List.replicate (ts.length + 3) D := by
    rw [a5, List.replicate_succ]
    show [bond A0] ++ _ = _
    rw [hb]
    rfl
  obtain ⟨d0, d1⟩ := dims_eq hsh
  unfold loschmidts at el
  rw [a4'] at el
  have hne : vs.isEmpty = false := by
    cases vs with
    | nil => simp at a3
    | cons _ _ => rfl
  rw [hne, show (!false) = true from rfl, guardPy_true, ok_bind, pyGet_ok (by omega : 0 < vs.length), ok_bind, d0, d1] at el
  obtain ⟨B, b1, b2⟩ := a2.reads 0 (by omega)
  rw [b1, ok_bind, a5'] at el
  have hB : B.shape = [2, D, D] := b2.1.trans (a2.canon 0 (by omega)).shape
  have hzl : ((List.replicate (ts.length + 3) D).zip vs).length = ts.length + 2 := by
    rw [List.length_zip, List.length_replicate, a3]
    omega
  have hz : ∀ k (hk : k < ((List.replicate (ts.length + 3) D).zip vs).length), ((List.replicate (ts.length + 3) D).zip vs)[k] = (D, vs[k]'(by omega)) := by
    intro k hk
    rw [List.getElem_zip, List.getElem_replicate]
  obtain ⟨c1, c2⟩ := losLoop_spec hchol hsvd hinv hfix harn hD (A0 := (f 0).A) ((List.replicate (ts.length + 3) D).zip vs) ⟨B, none, none, none⟩ rs hB
    (sameInf_symm (sameInf_of_eqv hB b2)) (by
      intro p hp
      obtain ⟨k, hk, rfl⟩ := List.getElem_of_mem hp
      rw [hz k hk]
      obtain ⟨C, e1, e2⟩ := a2.reads k (by omega)
      exact ⟨C, e1, e2.1.trans (a2.canon k (by omega)).shape⟩) el
  refine ⟨by rw [c1, hzl], f, vs, a1, a2, a3, ?_⟩
  intro k v hv
  obtain ⟨hk, hv⟩ := List.getElem?_eq_some_iff.1 hv
  obtain ⟨C, e1, e2⟩ := c2 k (by omega) hk
  rw [hz k (by omega)] at e1
  obtain ⟨C', e1', e3⟩ := a2.reads k (by omega)
  dsimp only at e1
  rw [e1'] at e1
  cases e1
  obtain ⟨q1, q2⟩ := e2 v hv
  have hC : C.shape = [2, D, D] := e3.1.trans (a2.canon k (by omega)).shape
  have hCf := sameInf_of_eqv hC e3
  have key : v = 0 ↔ SameInf 2 D (f k).A (f 0).A :=
    q2.trans ⟨fun hh => sameInf_trans (sameInf_symm hCf) hh, fun hh => sameInf_trans hCf hh⟩
  refine ⟨q1, key, fun h0 => key.2 ?_⟩
  subst h0
  exact ⟨1, 1, 1, by simp, one_ne_zero, fun s hs => by simp⟩

/-! ### only the eigensolver can raise -/

theorem intLoop_progress (hchol : CholTriLaw chol) (hsvd : SVDLaw svd) (hinv : InvLaw inv) (hnull : NullLaw null) (hfix : FixLaw eigs)
    (hroot : RootLaw root) (hD : 0 < D) (hh : h.shape = [4, 4]) {T : List ℂ} {t0 t1 : ℂ} (h0 : pyGet T 0 = .ok t0) (h1 : pyGet T 1 = .ok t1) {er : PyErr} :
    ∀ (n : ℕ) (x : IMPS) (r : Run), IMPS.Spec.LeftCanon D x → intLoop (euler chol inv null svd O eigs root h) T n x r = .error er →
    ∃ A : ND ℂ, A.shape = [2, D, D] ∧ eigs A = .error er
  | 0, x, r, hx, e => by
    unfold intLoop at e
    cases e
  | n + 1, x, r, hx, e => by
    unfold intLoop at e
    obtain ⟨v, A, e1, -, -⟩ := store_ok r hx.shape
    rw [h1, ok_bind, h0, ok_bind, e1, ok_bind] at e
    cases he : eigs x.A with
    | error er' =>
      refine ⟨x.A, hx.shape, ?_⟩
      have : dAdt chol inv null O eigs root x h = .error er' := by
        unfold dAdt
        dsimp only
        rw [(dims_eq hx.shape).1, ND.reshape_ok_any (by rw [hh]; rfl), ok_bind, he, err_bind]
      unfold euler at e
      rw [this, err_bind, err_bind] at e
      cases e
      exact he
    | ok p =>
      obtain ⟨g, eg, sg, -, -⟩ := leftCanon_round hchol hinv hnull hfix hroot hD hh hx he (O := O)
      have hz : x.A.zipNd (· + ·) (g.smul (t1 - t0)) = .ok ⟨x.A.shape, fun idx => x.A.val idx + (t1 - t0) * g.val idx⟩ := by
        unfold ND.zipNd
        rw [if_pos (by rw [hx.shape]; exact sg.symm)]
        rfl
      have heu : euler chol inv null svd O eigs root h x (t1 - t0) =
          canonicalise eigs chol svd inv ⟨⟨x.A.shape, fun idx => x.A.val idx + (t1 - t0) * g.val idx⟩, none, none, none⟩ .l := by
        unfold euler
        rw [eg, ok_bind, hz, ok_bind]
      rw [heu] at e
      rcases canon_progress (cholTri_chol hchol) hsvd hinv hfix hD (B := ⟨x.A.shape, fun idx => x.A.val idx + (t1 - t0) * g.val idx⟩) hx.shape with
        ⟨y, ey⟩ | ⟨er', ey, hy⟩
      · rw [ey, ok_bind] at e
        obtain ⟨a1, a2, a3⟩ := canon_fixed (cholTri_chol hchol) hsvd hinv hfix hD
          (B := ⟨x.A.shape, fun idx => x.A.val idx + (t1 - t0) * g.val idx⟩) hx.shape ey
        exact intLoop_progress hchol hsvd hinv hnull hfix hroot hD hh h0 h1 n y _ ⟨a1, a2, a3⟩ e
      · rw [ey, err_bind] at e
        cases e
        exact ⟨⟨x.A.shape, fun idx => x.A.val idx + (t1 - t0) * g.val idx⟩, hx.shape, hy⟩

/-- when the loop has run through, nothing after it raises -/
theorem integrate_of_loop (hchol : CholLaw chol) (hsvd : SVDLaw svd) (hinv : InvLaw inv) (hfix : FixLaw eigs) (hD : 0 < D)
    (hs : Canonical eigs chol svd inv step) {t0 t1 : ℂ} {ts : List ℂ} {r r1 : Run} {y : IMPS} (hA : r.A.shape = [2, D, D])
    (ey : canonicalise eigs chol svd inv ⟨r.A, none, none, none⟩ .l = .ok y)
    (hl : intLoop step (t0 :: t1 :: ts) (t0 :: t1 :: ts).length y r = .ok r1) : ∃ r', integrate chol inv svd eigs step r (t0 :: t1 :: ts) = .ok r' := by
  obtain ⟨a1, a2, a3⟩ := canon_fixed hchol hsvd hinv hfix hD hA ey
  obtain ⟨f, vs, hf, hlen, rfl, ht⟩ := intLoop_trace hchol hsvd hinv hfix hD hs (T := t0 :: t1 :: ts) rfl rfl _ _ _ _ ⟨a1, a2, a3⟩ hl
  have hne : vs ≠ [] := by
    intro hv
    rw [hv] at hlen
    simp at hlen
  have hpos := List.length_pos_iff.2 hne
  have hlast : r.history ++ vs = (r.history ++ vs.dropLast) ++ [vs[vs.length - 1]'(by omega)] := by
    rw [List.append_assoc]
    congr 1
    conv_lhs => rw [← List.dropLast_append_getLast hne]
    rw [List.getLast_eq_getElem]
  obtain ⟨B, b1, -⟩ := ht.reads (vs.length - 1) (by omega)
  obtain ⟨h0, h1⟩ := dims_eq a1
  unfold integrate
  rw [ey, ok_bind, hl, ok_bind]
  dsimp only
  rw [hlast, pyGetI_last, ok_bind, h0, h1, b1, ok_bind]
  exact ⟨_, rfl⟩

/-- `eulerint` for two or more times and a 4 × 4 matrix raises nothing but what the eigensolver raises -/
theorem eulerint_progress (hchol : CholTriLaw chol) (hsvd : SVDLaw svd) (hinv : InvLaw inv) (hnull : NullLaw null) (hfix : FixLaw eigs)
    (hroot : RootLaw root) (hD : 0 < D) (hh : h.shape = [4, 4]) {t0 t1 : ℂ} {ts : List ℂ} {r : Run} (hA : r.A.shape = [2, D, D]) {er : PyErr}
    (e : eulerint chol inv null svd O eigs root h r (t0 :: t1 :: ts) = .error er) : ∃ A : ND ℂ, A.shape = [2, D, D] ∧ eigs A = .error er := by
  unfold eulerint integrate at e
  rcases canon_progress (cholTri_chol hchol) hsvd hinv hfix hD hA with ⟨y, ey⟩ | ⟨er', ey, hy⟩
  · rw [ey, ok_bind] at e
    obtain ⟨a1, a2, a3⟩ := canon_fixed (cholTri_chol hchol) hsvd hinv hfix hD hA ey
    cases hl : intLoop (euler chol inv null svd O eigs root h) (t0 :: t1 :: ts) (t0 :: t1 :: ts).length y r with
    | error er' =>
      rw [hl, err_bind] at e
      cases e
      exact intLoop_progress hchol hsvd hinv hnull hfix hroot hD hh rfl rfl _ _ _ ⟨a1, a2, a3⟩ hl
    | ok r1 =>
      obtain ⟨r', er'⟩ := integrate_of_loop (cholTri_chol hchol) hsvd hinv hfix hD euler_canonical hA ey hl
      unfold integrate at er'
      rw [ey, ok_bind] at er'
      exact absurd (er'.symm.trans e) (by simp)
  · rw [ey, err_bind] at e
    cases e
    exact ⟨r.A, hA, hy⟩

/-- the tensor of the next state before it is made canonical: its norm differs from one in second order of the step only -/
theorem euler_norm {A g : ND ℂ} (hA : A.shape = [2, D, D]) (hiso : LeftIso A) (hg : ∑ s ∈ range 2, (toM3 D D A s)ᴴ * toM3 D D g s = 0) (dt : ℂ) :
    ∑ s ∈ range 2, (toM3 D D (⟨[2, D, D], fun idx => A.val idx + dt * g.val idx⟩ : ND ℂ) s)ᴴ *
        toM3 D D (⟨[2, D, D], fun idx => A.val idx + dt * g.val idx⟩ : ND ℂ) s =
      1 + ((‖dt‖ ^ 2 : ℝ) : ℂ) • ∑ s ∈ range 2, (toM3 D D g s)ᴴ * toM3 D D g s := by
  have h1 : ∀ s, toM3 D D (⟨[2, D, D], fun idx => A.val idx + dt * g.val idx⟩ : ND ℂ) s = toM3 D D A s + dt • toM3 D D g s := fun s => rfl
  have h2 : ∑ s ∈ range 2, (toM3 D D g s)ᴴ * toM3 D D A s = 0 := by
    have := congrArg conjTranspose hg
    simpa [conjTranspose_sum, conjTranspose_mul] using this
  have h3 : star dt * dt = ((‖dt‖ ^ 2 : ℝ) : ℂ) := by
    rw [← Complex.normSq_eq_norm_sq, Complex.normSq_eq_conj_mul_self]
    rfl
  have h4 : ∀ X Y : Matrix (Fin D) (Fin D) ℂ, (X + dt • Y)ᴴ * (X + dt • Y) = Xᴴ * X + dt • (Xᴴ * Y) + star dt • (Yᴴ * X) + (star dt * dt) • (Yᴴ * Y) := by
    intro X Y
    rw [conjTranspose_add, conjTranspose_smul, Matrix.add_mul, Matrix.mul_add, Matrix.mul_add]
    simp only [Matrix.smul_mul, Matrix.mul_smul, smul_smul, mul_comm dt (star dt)]
    abel
  simp only [h1, h4, sum_add_distrib, ← smul_sum]
  rw [hg, h2, smul_zero, smul_zero, (leftIso_iff hA).1 hiso, h3, add_zero, add_zero]

/-! ### runs exist -/

theorem goodFix_eqv {A B l r : ND ℂ} {eta : ℝ} (e : A ≈ B) (hB : IMPS.Spec.GoodFix d D B l r eta) : IMPS.Spec.GoodFix d D A l r eta := by
  obtain ⟨h1, h2, h3, h4⟩ := hB
  have hm : ∀ s ∈ range d, toM3 D D A s = toM3 D D B s := by
    intro s hs
    ext i j
    exact e.2 [s, i, j] (by rw [e.1, h1.shape]; exact ⟨mem_range.1 hs, i.2, j.2, trivial⟩)
  have c1 : ∀ M : Matrix (Fin D) (Fin D) ℂ, ∑ s ∈ range d, (toM3 D D A s)ᴴ * M * toM3 D D A s = ∑ s ∈ range d, (toM3 D D B s)ᴴ * M * toM3 D D B s :=
    fun M => sum_congr rfl fun s hs => by rw [hm s hs]
  have c2 : ∀ M : Matrix (Fin D) (Fin D) ℂ, ∑ s ∈ range d, toM3 D D A s * M * (toM3 D D A s)ᴴ = ∑ s ∈ range d, toM3 D D B s * M * (toM3 D D B s)ᴴ :=
    fun M => sum_congr rfl fun s hs => by rw [hm s hs]
  refine ⟨⟨e.1.trans h1.shape, h1.shape_l, h1.shape_r, h1.eta_pos, ?_, ?_, h1.pos_l, h1.pos_r⟩, h2, ?_, ?_⟩
  · rw [← h1.right]
    exact c2 _
  · rw [← h1.left]
    exact sum_congr rfl fun s hs => by rw [hm s hs]
  · intro M N hM hN
    rw [c1] at hM hN
    exact h3 M N hM hN
  · intro M N hM hN
    rw [c2] at hM hN
    exact h4 M N hM hN

theorem canon_blind (x : IMPS) : canonicalise eigs chol svd inv x .l = canonicalise eigs chol svd inv ⟨x.A, none, none, none⟩ .l := rfl

theorem intLoop_still (hchol : CholTriLaw chol) (hsvd : SVDLaw svd) (hinv : InvLaw inv) (hnull : NullLaw null) (hfix : FixLaw eigs)
    (htot : ∀ d D A l r eta, IMPS.Spec.GoodFix d D A l r eta → ∃ p, eigs A = .ok p)
    (hroot : RootLaw root) (hD : 0 < D) (hh : h.shape = [4, 4]) {T : List ℂ} {t : ℂ} (h0 : pyGet T 0 = .ok t) (h1 : pyGet T 1 = .ok t) :
    ∀ (n : ℕ) (x : IMPS) (r : Run) (l l' : ND ℂ), IMPS.Spec.LeftCanon D x → IMPS.Spec.GoodFix 2 D x.A l l' 1 →
    ∃ r', intLoop (euler chol inv null svd O eigs root h) T n x r = .ok r'
  | 0, x, r, l, l', hx, hg => ⟨r, rfl⟩
  | n + 1, x, r, l, l', hx, hg => by
    obtain ⟨p, he⟩ := htot _ _ _ _ _ _ hg
    obtain ⟨g, eg, sg, -, -⟩ := leftCanon_round hchol hinv hnull hfix hroot hD hh hx he (O := O)
    obtain ⟨z, k, k', ez, hz, gz⟩ := canon_good (cholTri_chol hchol) hsvd hinv hfix hD (B := x.A) hx.shape he
    have hzip : x.A.zipNd (· + ·) (g.smul (t - t)) = .ok x.A := by
      unfold ND.zipNd
      rw [if_pos (by rw [hx.shape]; exact sg.symm)]
      congr 1
      have : (fun idx => x.A.val idx + (g.smul (t - t)).val idx) = x.A.val := by
        funext idx
        show x.A.val idx + (t - t) * g.val idx = _
        rw [sub_self, zero_mul, add_zero]
      rw [this]
    obtain ⟨v, A, e1, -, -⟩ := store_ok r hx.shape
    obtain ⟨r', er'⟩ := intLoop_still hchol hsvd hinv hnull hfix htot hroot hD hh h0 h1 n z ⟨r.A, r.Ds ++ [D], r.history ++ [v]⟩ k k' hz gz
    refine ⟨r', ?_⟩
    unfold intLoop
    rw [h1, ok_bind, h0, ok_bind, e1, ok_bind]
    unfold euler
    rw [eg, ok_bind, hzip, ok_bind, ez, ok_bind]
    exact er'

theorem losLoop_ok (hchol : CholLaw chol) (hsvd : SVDLaw svd) (hinv : InvLaw inv) (hfix : FixLaw eigs) (harn : LeadingLaw arn) (hD : 1 < D)
    (htot : ∀ d D A l r eta, IMPS.Spec.GoodFix d D A l r eta → ∃ p, eigs A = .ok p) :
    ∀ (l : List (ℕ × List ℝ)) (m : IMPS) (p : ℝ × ND ℂ × ND ℂ), m.A.shape = [2, D, D] → eigs m.A = .ok p →
    (∀ q ∈ l, ∃ A q', reload q.2 2 q.1 = .ok A ∧ A.shape = [2, D, D] ∧ eigs A = .ok q') → ∃ rs, losLoop chol inv svd eigs arn 2 m l = .ok rs
  | [], m, p, hm, hp, hl => ⟨[], rfl⟩
  | (D', w) :: l, m, p, hm, hp, hl => by
    obtain ⟨A, ⟨eta, L, R⟩, eA, hA, f1⟩ := hl (D', w) (by simp)
    obtain ⟨eta', L', R'⟩ := p
    obtain ⟨g1, -, -, -⟩ := hfix A 2 D eta L R hA f1
    obtain ⟨g2, -, -, -⟩ := hfix m.A 2 D eta' L' R' hm hp
    obtain ⟨x2, m2, o2, k1, -⟩ := overlap_spec hchol hsvd hinv harn hD (x := ⟨A, none, none, none⟩) f1 g1 hp g2
    obtain ⟨z, k, k', ez, hz, gz⟩ := canon_good hchol hsvd hinv hfix (by omega : 0 < D) (B := m.A) hm hp
    have hm2 : m2 = z := by
      have k1' := k1
      unfold overlap at k1'
      obtain ⟨x3, -, k1'⟩ := bind_eq_ok k1'
      obtain ⟨m3, e3, k1'⟩ := bind_eq_ok k1'
      obtain ⟨_, -, k1'⟩ := bind_eq_ok k1'
      cases k1'
      rw [canon_blind, ez] at e3
      cases e3
      rfl
    subst hm2
    obtain ⟨p', hp'⟩ := htot _ _ _ _ _ _ gz
    obtain ⟨rs, er⟩ := losLoop_ok hchol hsvd hinv hfix harn hD htot l m2 p' hz.shape hp' (fun q hq => hl q (by simp [hq]))
    dsimp only at eA
    refine ⟨o2.map rate :: rs, ?_⟩
    unfold losLoop
    rw [eA, ok_bind, k1, ok_bind]
    dsimp only
    rw [er, ok_bind]

/-- the hypotheses of the theorems above can be met: a run over any number of equal times that starts at the cluster state, and its rates -/
example (O : SetOrder) (h : ND ℂ) (hh : h.shape = [4, 4]) (n : ℕ) : ∃ chol inv null svd eigs root arn, CholTriLaw chol ∧ SVDLaw svd ∧ InvLaw inv ∧
    NullLaw null ∧ FixLaw eigs ∧ RootLaw root ∧ LeadingLaw arn ∧ ∃ r rs,
      eulerint chol inv null svd O eigs root h (Run.start (exClu 1)) (0 :: 0 :: List.replicate n 0) = .ok r ∧ loschmidts chol inv svd eigs arn r = .ok rs := by
  obtain ⟨chol, h1⟩ := cholTriLaw_exists
  obtain ⟨inv, h2⟩ := invLaw_exists
  obtain ⟨null, h3⟩ := nullLaw_exists
  obtain ⟨root, h4⟩ := rootLaw_exists
  obtain ⟨svd, h5⟩ := svdLaw_exists
  obtain ⟨arn, h8⟩ := leadingLaw_exists
  obtain ⟨eigs, h6, h7⟩ := fixLaw_exists
  obtain ⟨p, hp⟩ := h7 _ _ _ _ _ _ (clu_good (z := 1) (by simp))
  obtain ⟨y, l, l', ey, hy, gy⟩ := canon_good (D := 2) (cholTri_chol h1) h5 h2 h6 (by norm_num) rfl hp
  obtain ⟨r1, e1⟩ := intLoop_still h1 h5 h2 h3 h6 h7 h4 (by norm_num) hh (T := 0 :: 0 :: List.replicate n 0) rfl rfl (0 :: 0 :: List.replicate n (0 : ℂ)).length y (Run.start (exClu 1)) l l'
    hy gy (O := O)
  obtain ⟨r, er⟩ := integrate_of_loop (D := 2) (r := Run.start (exClu 1)) (cholTri_chol h1) h5 h2 h6 (by norm_num) euler_canonical rfl ey e1
  obtain ⟨f, vs, a1, a2, a3, a4, a5, a6⟩ := integrate_spec (D := 2) (r := Run.start (exClu 1)) (cholTri_chol h1) h5 h2 h6 (by norm_num)
    euler_canonical rfl er
  have hr : ∀ k (hk : k < vs.length), ∃ A q', reload vs[k] 2 2 = .ok A ∧ A.shape = [2, 2, 2] ∧ eigs A = .ok q' := by
    intro k hk
    obtain ⟨A, b1, b2⟩ := a2.reads k hk
    have hn := a2.next k hk
    unfold euler at hn
    obtain ⟨g, eg, -⟩ := bind_eq_ok hn
    obtain ⟨-, -, ⟨eta, L, R⟩, hq⟩ := eAttr_of_dAdt eg
    have hsh := (a2.canon k hk.le).shape
    obtain ⟨q', hq'⟩ := h7 _ _ _ _ _ _ (goodFix_eqv b2 (h6 (f k).A 2 2 eta L R hsh hq))
    exact ⟨A, q', b1, b2.1.trans hsh, hq'⟩
  have hsh : r.A.shape = [2, 2, 2] := a6.1.trans (a2.canon _ (by omega)).shape
  obtain ⟨d0, d1⟩ := dims_eq hsh
  obtain ⟨B, q, b1, b2, b3⟩ := hr 0 (by omega)
  obtain ⟨rs, ers⟩ := losLoop_ok (cholTri_chol h1) h5 h2 h6 h8 (by norm_num) h7 (r.Ds.zip r.history) ⟨B, none, none, none⟩ q b2 b3 (by
    intro p hp
    obtain ⟨k, hk, rfl⟩ := List.getElem_of_mem hp
    have hv : r.history = vs := a4
    rw [List.length_zip, hv] at hk
    have hD : r.Ds = List.replicate (n + 3) 2 := by
      rw [a5, List.length_replicate]
      rfl
    have : (r.Ds.zip r.history)[k] = (2, vs[k]'(by omega)) := by
      simp [hv, hD]
    rw [this]
    exact hr k (by omega))
  refine ⟨chol, inv, null, svd, eigs, root, arn, h1, h5, h2, h3, h6, h4, h8, r, rs, er, ?_⟩
  unfold loschmidts
  have hv : r.history = vs := a4
  have hne : (!r.history.isEmpty) = true := by
    rw [hv]
    cases vs with
    | nil => simp at a3
    | cons _ _ => rfl
  have h00 : pyGet r.history 0 = .ok (vs[0]'(by omega)) := by
    rw [hv]
    exact pyGet_ok (by omega)
  rw [hne, guardPy_true, ok_bind, h00, ok_bind, d0, d1, b1, ok_bind]
  exact ers

end Xmps.ITdvp
