import Verif.Model.IsoRandom
import Verif.Props.RhoProj
import Verif.Props.TwoSite
import Verif.Props.Structure

/-!
# C117, C118: `apply_two_site_isometry` on neighbours, `random`
-/

namespace Xmps

open Spec Finset Xmps.Ncon

section iso
variable {d e f l m r : ℕ}

theorem applyIsometry_ok (O : SetOrder) {A B Is : ND ℂ} (hA : A.shape = [d, l, m]) (hB : B.shape = [e, m, r]) (hI : Is.shape = [f, d * e]) :
    ∃ T, applyIsometry O A B Is = .ok T ∧ T.shape = [f, l, r] ∧ ∀ t a c, a < l → c < r →
      T.val [t, a, c] = ∑ s ∈ range d, ∑ u ∈ range e, Is.val [t, s * e + u] * ∑ b ∈ range m, A.val [s, a, b] * B.val [u, b, c] := by
  obtain ⟨G, eG, hG, vG⟩ := groupTensors_ok O hA hB
  have h : ∃ T, Is.tensordot G [1] [0] = .ok T ∧ T.shape = [f, l, r] ∧ ∀ t a c, T.val [t, a, c] = ∑ k ∈ range (d * e), Is.val [t, k] * G.val [k, a, c] := by
    refine ⟨Is.tensordotR G [1] [0], by simp [ND.tensordot, ND.rank, ND.dim, hI, hG], ?_, fun t a c => ?_⟩ <;>
    simp [ND.tensordotR, ND.transposeR, ND.rank, ND.others, ND.dim, hI, hG, List.range_succ]
  obtain ⟨T, eT, hT, vT⟩ := h
  refine ⟨T, by rw [applyIsometry, eG, ok_bind, eT], hT, fun t a c ha hc => ?_⟩
  rw [vT, sum_range_mul]
  refine sum_congr rfl fun s hs => sum_congr rfl fun u hu => ?_
  rw [vG s (mem_range.1 hs) u (mem_range.1 hu) a ha c hc]

/-- the state after the isometry `op` took the two sites `s, u` to one site: `Σ_{s,u} op[t, (s,u)] ψ(.., s, u, ..)` -/
def Spec.isoAct (d e : ℕ) (op : ND ℂ) (ψ : List ℕ → ℂ) (s1 : List ℕ) (t : ℕ) (s2 : List ℕ) : ℂ :=
  ∑ s ∈ range d, ∑ u ∈ range e, op.val [t, s * e + u] * ψ (s1 ++ s :: u :: s2)

variable {ds1 ds2 : List ℕ} {As1 As2 : List (ND ℂ)} {A B : ND ℂ}

/-- **C117** (`_partial`: neighbouring sites only; with SWAPs in between the bonds need not fit): the array written by `apply_two_site_isometry` is
the right one: once the other of the two sites is removed by hand, the chain holds the state after the isometry. -/
theorem FMPS.applyTwoSiteIsometry_neighbours_partial (qr rq : ND ℂ → Py (ND ℂ × ND ℂ)) (svd : Svd) (O : SetOrder) {x : FMPS ℂ} {op : ND ℂ} {lr : ℕ}
    (h1 : MpsChain ds1 As1 1 l) (hA : A.shape = [d, l, m]) (hB : B.shape = [e, m, r]) (h2 : MpsChain ds2 As2 r 1)
    (hx : x.data = As1 ++ A :: B :: As2) (ho : op.shape = [f, d * e]) (hlr : lr < 2) :
    ∃ y, x.applyTwoSiteIsometry qr rq svd O op ds1.length (ds1.length + 1) lr = .ok y ∧ y.L = x.L ∧
      MpsChain (ds1 ++ f :: ds2) (y.data.eraseIdx (ds1.length + 1 - lr)) 1 1 ∧
      ∀ s1 t s2, InB ds1 s1 → t < f → InB ds2 s2 →
        psi (y.data.eraseIdx (ds1.length + 1 - lr)) (s1 ++ t :: s2) = isoAct d e op (psi x.data) s1 t s2 := by
  obtain ⟨T, eT, hT, vT⟩ := applyIsometry_ok O hA hB ho
  have l1 := h1.length_eq
  have g0 : pyGet x.data ds1.length = .ok A := by rw [hx, ← l1]; simp [pyGet]
  have g1 : pyGet x.data (ds1.length + 1) = .ok B := by rw [hx, ← l1]; simp [pyGet]
  have hrun : ∃ y, x.applyTwoSiteIsometry qr rq svd O op ds1.length (ds1.length + 1) lr = .ok y ∧ y.L = x.L ∧
      y.data.eraseIdx (ds1.length + 1 - lr) = As1 ++ T :: As2 := by
    refine ⟨{ x with data := x.data.set (ds1.length + lr) T }, ?_, rfl, ?_⟩
    · have e1 : min ds1.length (ds1.length + 1) = ds1.length := by omega
      have e2 : max ds1.length (ds1.length + 1) = ds1.length + 1 := by omega
      have e3 : ds1.length + 1 - 1 - ds1.length = 0 := by omega
      have ek : pyGet [ds1.length, ds1.length + 1] lr = .ok (ds1.length + lr) := by
        interval_cases lr <;> rfl
      simp only [FMPS.applyTwoSiteIsometry, e1, e2, e3, List.range'_zero, List.reverse_nil, List.foldlM_nil, FMPS.isometryStep, g0, g1, eT, ek, ok_bind,
        py_pure]
      simp [guardPy, ok_bind]
    · simp only [hx, ← l1]
      interval_cases lr
      · simp [List.eraseIdx_append]
      · simp [List.eraseIdx_append]
  obtain ⟨y, ey, hL, hd⟩ := hrun
  have hch : MpsChain (ds1 ++ f :: ds2) (As1 ++ T :: As2) 1 1 := (mpsChain_append l1).2 ⟨l, h1, r, hT, h2⟩
  have hch0 : MpsChain (ds1 ++ d :: e :: ds2) (As1 ++ A :: B :: As2) 1 1 := (mpsChain_append l1).2 ⟨l, h1, m, hA, r, hB, h2⟩
  refine ⟨y, ey, hL, by rw [hd]; exact hch, fun s1 t s2 hs1 ht hs2 => ?_⟩
  have q1 := hs1.length_eq
  have q2 := hs2.length_eq
  have hp : ∀ s u, psi x.data (s1 ++ s :: u :: s2) = ∑ c ∈ range l, ∑ g ∈ range r, amp As1 s1 0 c *
      ((∑ b ∈ range m, A.val [s, c, b] * B.val [u, b, g]) * amp As2 s2 g 0) := by
    intro s u
    rw [hx, psi_eq_amp hch0 (by simp) (by simp [q1, q2]), amp_mid h1 q1 hA s 0 0 (by omega)]
    refine sum_congr rfl fun c _ => ?_
    have : ∀ b, amp (B :: As2) (u :: s2) b 0 = ∑ g ∈ range r, B.val [u, b, g] * amp As2 s2 g 0 := by
      intro b
      rw [amp, dim2 hB]
    simp only [this, mul_sum, sum_mul]
    rw [sum_comm]
    exact sum_congr rfl fun g _ => sum_congr rfl fun b _ => by ring
  rw [hd, psi_eq_amp hch (by simp) (by simp [q1, q2]), amp_mid h1 q1 hT t 0 0 (by omega), isoAct]
  have hR : ∀ s u, op.val [t, s * e + u] * psi x.data (s1 ++ s :: u :: s2) = ∑ c ∈ range l, ∑ g ∈ range r, amp As1 s1 0 c *
      (op.val [t, s * e + u] * (∑ b ∈ range m, A.val [s, c, b] * B.val [u, b, g]) * amp As2 s2 g 0) := by
    intro s u
    rw [hp, mul_sum]
    refine sum_congr rfl fun c _ => ?_
    rw [mul_sum]
    exact sum_congr rfl fun g _ => by ring
  have hRR : (∑ s ∈ range d, ∑ u ∈ range e, op.val [t, s * e + u] * psi x.data (s1 ++ s :: u :: s2)) =
      ∑ c ∈ range l, ∑ g ∈ range r, ∑ s ∈ range d, ∑ u ∈ range e, amp As1 s1 0 c *
      (op.val [t, s * e + u] * (∑ b ∈ range m, A.val [s, c, b] * B.val [u, b, g]) * amp As2 s2 g 0) := by
    calc _ = ∑ s ∈ range d, ∑ c ∈ range l, ∑ g ∈ range r, ∑ u ∈ range e, amp As1 s1 0 c *
        (op.val [t, s * e + u] * (∑ b ∈ range m, A.val [s, c, b] * B.val [u, b, g]) * amp As2 s2 g 0) := by
          refine sum_congr rfl fun s _ => ?_
          simp only [hR]
          rw [sum_comm]
          exact sum_congr rfl fun c _ => sum_comm
      _ = _ := by
          rw [sum_comm]
          exact sum_congr rfl fun c _ => sum_comm
  rw [hRR]
  refine sum_congr rfl fun c hc => sum_congr rfl fun g hg => ?_
  rw [vT t c g (mem_range.1 hc) (mem_range.1 hg), sum_mul, mul_sum]
  refine sum_congr rfl fun s _ => ?_
  rw [sum_mul, mul_sum]

theorem chain_tail : ∀ {ds1 ds' : List ℕ} {As1 Cs : List (ND ℂ)} {a l b : ℕ}, MpsChain ds1 As1 a l → MpsChain ds' (As1 ++ Cs) a b →
    ∃ ds'', MpsChain ds'' Cs l b
  | [], ds', [], Cs, a, l, b, h, h' => ⟨ds', by cases (show a = l from h); exact h'⟩
  | _ :: ds1, _ :: ds', A :: As1, Cs, a, l, b, ⟨m, hm, h⟩, ⟨m', hm', h'⟩ => by
    have : m = m' := by rw [hm] at hm'; simp at hm'; exact hm'.2
    subst this
    exact chain_tail h h'
  | _ :: _, [], _ :: _, _, _, _, _, _, h' => h'.elim

/-- **C117** (violated): the object that `apply_two_site_isometry` returns still has both sites.  Its tensors fit together only if the bonds happen to
agree: the middle one with the right one (`lr = 0`), the left one with the middle one (`lr = 1`). -/
theorem FMPS.applyTwoSiteIsometry_chain (qr rq : ND ℂ → Py (ND ℂ × ND ℂ)) (svd : Svd) (O : SetOrder) {x : FMPS ℂ} {op : ND ℂ} {lr : ℕ}
    (h1 : MpsChain ds1 As1 1 l) (hA : A.shape = [d, l, m]) (hB : B.shape = [e, m, r]) (h2 : MpsChain ds2 As2 r 1)
    (hx : x.data = As1 ++ A :: B :: As2) (ho : op.shape = [f, d * e]) (hlr : lr < 2) :
    ∃ y, x.applyTwoSiteIsometry qr rq svd O op ds1.length (ds1.length + 1) lr = .ok y ∧ y.data.length = x.data.length ∧
      ((∃ ds', MpsChain ds' y.data 1 1) ↔ if lr = 0 then m = r else l = m) := by
  obtain ⟨T, eT, hT, -⟩ := applyIsometry_ok O hA hB ho
  have l1 := h1.length_eq
  have g0 : pyGet x.data ds1.length = .ok A := by rw [hx, ← l1]; simp [pyGet]
  have g1 : pyGet x.data (ds1.length + 1) = .ok B := by rw [hx, ← l1]; simp [pyGet]
  refine ⟨{ x with data := x.data.set (ds1.length + lr) T }, ?_, by simp, ?_⟩
  · have e1 : min ds1.length (ds1.length + 1) = ds1.length := by omega
    have e2 : max ds1.length (ds1.length + 1) = ds1.length + 1 := by omega
    have e3 : ds1.length + 1 - 1 - ds1.length = 0 := by omega
    have ek : pyGet [ds1.length, ds1.length + 1] lr = .ok (ds1.length + lr) := by
      interval_cases lr <;> rfl
    simp only [FMPS.applyTwoSiteIsometry, e1, e2, e3, List.range'_zero, List.reverse_nil, List.foldlM_nil, FMPS.isometryStep, g0, g1, eT, ek, ok_bind,
      py_pure]
    simp [guardPy, ok_bind]
  · interval_cases lr
    · have hs : x.data.set (ds1.length + 0) T = As1 ++ T :: B :: As2 := by rw [hx, ← l1]; simp
      simp only [hs, if_true]
      constructor
      · rintro ⟨ds', h⟩
        obtain ⟨ds'', h⟩ := chain_tail h1 h
        match ds'', h with
        | _ :: _ :: _, ⟨a, ha, b, hb, _⟩ =>
          rw [hT] at ha
          rw [hB] at hb
          simp at ha hb
          omega
      · rintro rfl
        exact ⟨ds1 ++ f :: e :: ds2, (mpsChain_append l1).2 ⟨l, h1, m, hT, m, hB, h2⟩⟩
    · have hs : x.data.set (ds1.length + 1) T = As1 ++ A :: T :: As2 := by rw [hx, ← l1]; simp
      simp only [hs, one_ne_zero, if_false]
      constructor
      · rintro ⟨ds', h⟩
        obtain ⟨ds'', h⟩ := chain_tail h1 h
        match ds'', h with
        | _ :: _ :: _, ⟨a, ha, b, hb, _⟩ =>
          rw [hA] at ha
          rw [hT] at hb
          simp at ha hb
          omega
      · rintro rfl
        exact ⟨ds1 ++ d :: f :: ds2, (mpsChain_append l1).2 ⟨l, h1, l, hA, r, hT, h2⟩⟩

/-- **C117**: equal sites are refused. -/
theorem FMPS.applyTwoSiteIsometry_same (qr rq : ND ℂ → Py (ND ℂ × ND ℂ)) (svd : Svd) (O : SetOrder) (x : FMPS ℂ) (op : ND ℂ) (i lr : ℕ) :
    x.applyTwoSiteIsometry qr rq svd O op i i lr = .error .assertionError := by
  simp [FMPS.applyTwoSiteIsometry, guardPy, err_bind]

/-- an isometry of two spins to one, on a chain with the bond 2: removing a site gives the state, the object itself is no chain -/
example (qr rq : ND ℂ → Py (ND ℂ × ND ℂ)) (svd : Svd) (O : SetOrder) {A B : ND ℂ} (hx : (exTwo 2).data = [A, B]) (hA : A.shape = [2, 1, 2])
    (hB : B.shape = [2, 2, 1]) : ∃ y, (exTwo 2).applyTwoSiteIsometry qr rq svd O (onesND [2, 4]) 0 1 1 = .ok y ∧ ¬ ∃ ds', MpsChain ds' y.data 1 1 := by
  obtain ⟨y, ey, -, h⟩ := FMPS.applyTwoSiteIsometry_chain qr rq svd O (ds1 := []) (ds2 := []) (As1 := []) (As2 := []) (x := exTwo 2)
    (op := onesND [2, 4]) (lr := 1) (f := 2) rfl hA hB rfl hx rfl (by simp)
  exact ⟨y, ey, by rw [h]; simp⟩

example : ∃ A B, (exTwo 2).data = [A, B] ∧ A.shape = [2, 1, 2] ∧ B.shape = [2, 2, 1] := ⟨_, _, rfl, rfl, rfl⟩

end iso

section random
variable {L d : ℕ} (ang : ℕ → ℝ × ℝ) (rnd : ℕ → List ℕ → ℝ × ℝ) (real : Bool)

theorem blochTensor_norm (th f : ℝ) : ∑ a ∈ range 2, ‖(FMPS.blochTensor real th f).val [a, 0, 0]‖ ^ 2 = 1 := by
  have h : ‖Complex.exp (Complex.I * f * (if real then 0 else 1))‖ = 1 := by
    have : Complex.I * (f : ℂ) * (if real then 0 else 1) = ((f * if real then 0 else 1 : ℝ) : ℂ) * Complex.I := by
      split_ifs <;> push_cast <;> ring
    rw [this, Complex.norm_exp_ofReal_mul_I]
  simp only [sum_range_succ, range_zero, sum_empty, zero_add, FMPS.blochTensor, norm_mul, h, one_mul, Complex.norm_real, Real.norm_eq_abs, sq_abs]
  exact Real.cos_sq_add_sin_sq _

/-- **C118**: `random(L, 2, 1)` is a normalised product state of spins. -/
theorem FMPS.random_product (x : FMPS ℂ) (hL : 0 < L) : ∃ y, x.random ang rnd L 2 (some 1) real = .ok y ∧ y.Product L 2 ∧
    braket (List.replicate L 2) y.data y.data = 1 := by
  refine ⟨_, if_pos rfl, ?_⟩
  have hf : ∀ A ∈ (List.range L).map fun i : ℕ => FMPS.blochTensor real (ang i).1 (ang i).2, A.shape = [2, 1, 1] := by
    intro A hA
    simp only [List.mem_map] at hA
    obtain ⟨i, -, rfl⟩ := hA
    rfl
  have hp : FMPS.Product { x with L := L, d := 2, D := 1, data := (List.range L).map fun i : ℕ => FMPS.blochTensor real (ang i).1 (ang i).2 } L 2 := by
    refine ⟨⟨?_, by simp; omega, by simp, ?_⟩, hf⟩
    · have := chain_flat hf
      simpa using this
    · obtain ⟨L, rfl⟩ : ∃ k, L = k + 1 := ⟨L - 1, by omega⟩
      simp [List.replicate_succ]
  refine ⟨hp, ?_⟩
  rw [braket_product hp, siteDots_self]
  simp [List.map_map, Function.comp_def, blochTensor_norm]

/-- **C118** (violated): with `D = 1` the tensors have local dimension 2 whatever `d` is, while the attribute says `d`. -/
theorem FMPS.random_product_wrong (x : FMPS ℂ) (hL : 0 < L) (hd : d ≠ 2) : ∃ y, x.random ang rnd L d (some 1) real = .ok y ∧ y.d = d ∧
    MpsChain (List.replicate L 2) y.data 1 1 ∧ ¬ MpsChain (List.replicate L d) y.data 1 1 := by
  refine ⟨_, if_pos rfl, rfl, ?_, ?_⟩
  · have := chain_flat (d := 2) (As := (List.range L).map fun i : ℕ => FMPS.blochTensor real (ang i).1 (ang i).2) (by
      intro A hA
      simp only [List.mem_map] at hA
      obtain ⟨i, -, rfl⟩ := hA
      rfl)
    simpa using this
  · obtain ⟨L, rfl⟩ : ∃ k, L = k + 1 := ⟨L - 1, by omega⟩
    rw [List.replicate_succ, List.range_succ_eq_map, List.map_cons]
    rintro ⟨m, h, -⟩
    simp [FMPS.blochTensor] at h
    omega

/-- the tensors of `random` with given bonds -/
theorem chain_bonds (g : ℕ → ℕ) (v : ℕ → List ℕ → ℂ) : ∀ (n i : ℕ), MpsChain (List.replicate n d)
    (((List.range' i n).map fun j => (g j, g (j + 1))).zipIdx i |>.map fun p => (⟨[d, p.1.1, p.1.2], v p.2⟩ : ND ℂ)) (g i) (g (i + n))
  | 0, _ => rfl
  | n + 1, i => by
    refine ⟨g (i + 1), rfl, ?_⟩
    have := chain_bonds g v n (i + 1)
    rwa [show i + 1 + n = i + (n + 1) by omega] at this

theorem foldl_max_le {l : List ℕ} {a B : ℕ} (ha : a ≤ B) (h : ∀ b ∈ l, b ≤ B) : l.foldl max a ≤ B := by
  induction l generalizing a with
  | nil => exact ha
  | cons b l ih => exact ih (max_le ha (h b (by simp))) fun c hc => h c (by simp [hc])

/-- **C118**: for at least two sites and `D ≠ 1` the result is a chain of `L` sites of dimension `d` with the bonds `min(d**min(i, L-i), D)`, no flag
set, and the attribute `D` at most the one asked for; the attribute `oc` is what it was before. -/
theorem FMPS.random_chain (x : FMPS ℂ) {D : ℕ} (hL : 2 ≤ L) (hD : 0 < D) (hD1 : D ≠ 1) : ∃ y, x.random ang rnd L d (some D) real = .ok y ∧
    y.Holds (List.replicate L d) ∧ y.data.map (·.shape) = (List.range L).map (fun i => [d, bondAt L d D i, bondAt L d D (i + 1)]) ∧ y.D ≤ D ∧
    y.canonical = false ∧ y.orthogonal = false ∧ y.oc = x.oc := by
  obtain ⟨n, rfl⟩ : ∃ n, L = n + 1 := ⟨L - 1, by omega⟩
  have hst := FMPS.createStructure_spec (L := n + 1) (d := d) (D := D) hL
  have hmx : ∃ D', pyMax (((List.range (n + 1)).map fun i => (bondAt (n + 1) d D i, bondAt (n + 1) d D (i + 1))).map fun p => p.2) = .ok D' ∧ D' ≤ D := by
    rw [List.map_map, List.range_succ_eq_map, List.map_cons]
    refine ⟨_, rfl, foldl_max_le (min_le_right _ _) ?_⟩
    intro b hb
    simp only [List.mem_map] at hb
    obtain ⟨_, -, rfl⟩ := hb
    exact min_le_right _ _
  obtain ⟨D', hm, hle⟩ := hmx
  have hrun : ∃ y, x.random ang rnd (n + 1) d (some D) real = .ok y ∧ y.L = n + 1 ∧ y.d = d ∧ y.D = D' ∧ y.canonical = false ∧ y.orthogonal = false ∧
      y.oc = x.oc ∧ y.data = ((List.range (n + 1)).map fun i => (bondAt (n + 1) d D i, bondAt (n + 1) d D (i + 1))).zipIdx.map
        fun p => ⟨[d, p.1.1, p.1.2], fun s => ((rnd p.2 s).1 : ℂ) + (if real then 0 else 1) * Complex.I * ((rnd p.2 s).2 : ℂ)⟩ := by
    refine ⟨{ x with
      L := n + 1
      d := d
      D := D'
      data := ((List.range (n + 1)).map fun i => (bondAt (n + 1) d D i, bondAt (n + 1) d D (i + 1))).zipIdx.map
        fun p => ⟨[d, p.1.1, p.1.2], fun s => ((rnd p.2 s).1 : ℂ) + (if real then 0 else 1) * Complex.I * ((rnd p.2 s).2 : ℂ)⟩
      canonical := false
      orthogonal := false }, ?_, rfl, rfl, rfl, rfl, rfl, rfl, rfl⟩
    rw [FMPS.random, if_neg (by simpa using hD1), hst, ok_bind, hm, ok_bind]
  obtain ⟨y, ey, q1, q2, q3, q4, q5, q6, q7⟩ := hrun
  refine ⟨y, ey, ⟨?_, by simp, by simp [q1], by simp [q2, List.replicate_succ]⟩, ?_, by omega, q4, q5, q6⟩
  · have := chain_bonds (d := d) (bondAt (n + 1) d D) (fun i s => ((rnd i s).1 : ℂ) + (if real then 0 else 1) * Complex.I * ((rnd i s).2 : ℂ)) (n + 1) 0
    rw [← List.range_eq_range'] at this
    rw [q7]
    have b0 : bondAt (n + 1) d D 0 = 1 := by simp [bondAt]; omega
    have b1 : bondAt (n + 1) d D (n + 1) = 1 := by simp [bondAt]; omega
    simpa [b0, b1] using this
  · rw [q7, List.map_map]
    apply List.ext_getElem
    · simp
    · intro i h1 h2
      simp

/-- **C118** (violated): a chain of one site is not available for `D ≠ 1`. -/
theorem FMPS.random_one_site (x : FMPS ℂ) {D : Option ℕ} (hD : D ≠ some 1) : x.random ang rnd 1 d D real = .error .indexError := by
  rw [FMPS.random, if_neg hD]
  rfl

/-- **C118**: with `real=True` all entries are real. -/
theorem FMPS.random_real (x : FMPS ℂ) {D : Option ℕ} {y : FMPS ℂ} (h : x.random ang rnd L d D true = .ok y) :
    ∀ A ∈ y.data, ∀ s, star (A.val s) = A.val s := by
  unfold FMPS.random at h
  by_cases h1 : D = some 1
  · rw [if_pos h1] at h
    cases h
    intro A hA s
    simp only [List.mem_map] at hA
    obtain ⟨i, -, rfl⟩ := hA
    unfold FMPS.blochTensor
    dsimp only
    split <;> simp [Complex.star_def, ← Complex.ofReal_sin, ← Complex.ofReal_cos, -Complex.ofReal_sin, -Complex.ofReal_cos, Complex.conj_ofReal]
  · rw [if_neg h1] at h
    obtain ⟨st, -, h⟩ := bind_eq_ok h
    obtain ⟨D', -, h⟩ := bind_eq_ok h
    cases h
    intro A hA s
    simp only [List.mem_map] at hA
    obtain ⟨i, -, rfl⟩ := hA
    simp [Complex.star_def, Complex.conj_ofReal]

end random

/-! ### the centre that `random` leaves behind -/

/-- an object whose centre is the first site -/
def exCentre : FMPS ℂ := { L := 1, d := 2, D := 1, data := [⟨[2, 1, 1], fun | 0 :: _ => 1 | _ => 0⟩], orthogonal := true, oc := some 0 }

/-- the object is one that the library may hold: normalised, its centre is where `oc` says -/
theorem exCentre_honest : exCentre.Honest [2] := by
  refine ⟨⟨⟨1, rfl, rfl⟩, by simp, rfl, rfl⟩, ?_, ⟨[0], by simp [InB], by simp [psi, exCentre, pathProd]⟩, ?_, by simp [exCentre]⟩
  · intro A hA n hn
    simp only [exCentre, List.mem_singleton] at hA
    subst hA
    simp at hn
    omega
  · intro c hc _
    simp only [exCentre, Option.some.injEq] at hc
    subst hc
    exact ⟨⟨by simp [exCentre], by simp [exCentre], by simp [exCentre]⟩, by simp [braket, sumIdx, psi, exCentre, pathProd, sum_range_succ]⟩

/-- **C118** (violated): `random` keeps `oc`, so that `rho` afterwards takes the new tensors for a centred chain: if all random numbers are 1, the
reduced density matrix of the first site has trace 4. -/
theorem FMPS.random_stale (qr rq : ND ℂ → Py (ND ℂ × ND ℂ)) (O : SetOrder) (ang : ℕ → ℝ × ℝ) : ∃ y R,
    exCentre.random ang (fun _ _ => (1, 0)) 2 2 (some 2) = .ok y ∧ y.rho qr rq O [0] = .ok (.inr R, y) ∧ R.val [0, 0] + R.val [1, 1] = 4 := by
  obtain ⟨y, ey, hd, h2, hoc⟩ : ∃ y, exCentre.random ang (fun _ _ => (1, 0)) 2 2 (some 2) = .ok y ∧
      y.data = [⟨[2, 1, 2], fun _ => ((1 : ℝ) : ℂ) + (if false then 0 else 1) * Complex.I * ((0 : ℝ) : ℂ)⟩,
        ⟨[2, 2, 1], fun _ => ((1 : ℝ) : ℂ) + (if false then 0 else 1) * Complex.I * ((0 : ℝ) : ℂ)⟩] ∧ y.d = 2 ∧ y.oc = some 0 := by
    exact ⟨_, rfl, rfl, rfl, rfl⟩
  set A : ND ℂ := ⟨[2, 1, 2], fun _ => ((1 : ℝ) : ℂ) + (if false then 0 else 1) * Complex.I * ((0 : ℝ) : ℂ)⟩ with hA
  have sA : A.shape = [2, 1, 2] := rfl
  have sA' : A.conj.shape = [2, 1, 2] := rfl
  obtain ⟨R, e, hR, hv⟩ := nc_eval O (AA := [A, A.conj]) (v := [[-1, 1, 3], [-2, 1, 3]]) (dimOf [(1, 1), (3, 2), (-1, 2), (-2, 2)]) [1, 3] [-1, -2]
    ⟨by simp, by simp [sA, sA', dimOf, List.lookup], by simp, by simp, by decide, by decide, by decide, by decide, by decide⟩ (by decide) (by decide)
  have hR' : R.shape = [2, 2] := by rw [hR]; simp [dimOf, List.lookup]
  have hbd : FMPS.bondDimension y.data = .ok 2 := by rw [hd]; rfl
  have hrec : y.recenterRho qr rq [0] = .ok y := by rw [FMPS.recenterRho, hoc, if_neg (by simp)]
  have hre : R.reshape [y.d ^ [0].length, R.size / y.d ^ [0].length] = .ok (R.reshapeR [2, 2]) := by
    simp [ND.reshape, ND.size, hR', h2]
  refine ⟨y, R.reshapeR [2, 2], ey, ?_, ?_⟩
  · have hl : FMPS.linksRho 1 = [[-1, 1, 3], [-2, 1, 3]] := by decide
    rw [FMPS.rho, hbd, ok_bind, if_neg (by simp), FMPS.rhoFull, hrec, ok_bind]
    have hM : [0].mapM (pyGet y.data) = .ok [A] := by rw [hd]; rfl
    rw [hM, ok_bind]
    simp only [List.map_cons, List.map_nil, List.cons_append, List.nil_append, List.length_singleton, hl]
    rw [e, ok_bind]
    simp only [List.length_singleton] at hre
    rw [hre]
    rfl
  · have hval : ∀ a < 2, (R.reshapeR [2, 2]).val [a, a] = R.val [a, a] := by
      intro a ha
      simp only [ND.reshapeR, hR']
      interval_cases a <;> rfl
    rw [hval 0 (by simp), hval 1 (by simp), hv _ rfl, hv _ rfl]
    simp [labelSum, netTerm, assign, ND.conj, hA, dimOf, List.lookup, sum_range_succ]
    norm_num

section examples
variable (ang : ℕ → ℝ × ℝ) (rnd : ℕ → List ℕ → ℝ × ℝ)

example := FMPS.random_product ang rnd false exCentre (L := 3) (by simp)
example := FMPS.random_product_wrong ang rnd false exCentre (L := 3) (d := 3) (by simp) (by simp)
example := FMPS.random_chain ang rnd false exCentre (L := 3) (d := 3) (D := 4) (by simp) (by simp) (by simp)
example := FMPS.random_one_site (d := 2) ang rnd false exCentre (D := none) (by simp)
example : ∃ y, exCentre.random ang rnd 3 2 (some 1) true = .ok y ∧ ∀ A ∈ y.data, ∀ s, star (A.val s) = A.val s :=
  ⟨_, rfl, FMPS.random_real (L := 3) (d := 2) ang rnd exCentre (D := some 1) rfl⟩

end examples

end Xmps
