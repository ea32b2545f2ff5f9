import Verif.Props.TrajObs
import Verif.Props.LapackSvd

/-!
# `von_neumann` and `renyi` (C100)
-/

namespace Xmps

open Finset Spec

/-- `v` is the largest value of `f` on the Schmidt weights of the normalised state over all cuts -/
def Spec.MaxOverCuts (ds : List ℕ) (ψ : List ℕ → ℂ) (f : List ℝ → ℝ) (v : ℝ) : Prop :=
  IsGreatest {a | ∃ m ≤ ds.length, ∃ lam, SchmidtAt (ds.take m) (ds.drop m) (unitOf ds ψ) lam ∧ f lam = a} v

/-- the Rényi entropy of order `α` of weights -/
noncomputable def Spec.renyiOf (α : ℕ) (lam : List ℝ) : ℝ := 1 / (1 - (α : ℝ)) * Real.log (lam.map fun x => x ^ α).sum

theorem renyiOf_two (lam : List ℝ) : renyiOf 2 lam = renyiTwo lam := by
  unfold renyiOf renyiTwo
  push_cast
  ring

theorem renyiOf_zero (lam : List ℝ) : renyiOf 0 lam = Real.log lam.length := by
  unfold renyiOf
  simp

/-- across no cut more than one Schmidt weight -/
def Spec.Unentangled (ds : List ℕ) (ψ : List ℕ → ℂ) : Prop :=
  ∀ m ≤ ds.length, ∀ lam, SchmidtAt (ds.take m) (ds.drop m) (unitOf ds ψ) lam → lam.length = 1

namespace Tdvp

theorem vnEntropy_real {lam : List ℝ} (hp : ∀ x ∈ lam, 0 < x) : vnEntropy (lam.map Complex.ofReal) = shannon lam := by
  have : ((lam.map Complex.ofReal).map fun x => x * Complex.log x).sum = (((lam.map fun x => x * Real.log x).sum : ℝ) : ℂ) := by
    induction lam with
    | nil => simp
    | cons a l ih =>
      simp only [List.map_cons, List.sum_cons, ih fun x hx => hp x (by simp [hx])]
      rw [← Complex.ofReal_log (hp a (by simp)).le]
      push_cast
      rfl
  rw [vnEntropy, this, Complex.ofReal_re, shannon]

theorem renyiEntropy_real {α : ℕ} (hα : α ≠ 1) {lam : List ℝ} (hp : ∀ x ∈ lam, 0 < x) :
    renyiEntropy α (lam.map Complex.ofReal) = .ok (renyiOf α lam : ℂ) := by
  have : ((lam.map Complex.ofReal).map fun x => x ^ α).sum = (((lam.map fun x => x ^ α).sum : ℝ) : ℂ) := by
    induction lam with
    | nil => simp
    | cons a l ih =>
      simp only [List.map_cons, List.sum_cons, ih fun x hx => hp x (by simp [hx])]
      push_cast
      rfl
  have h0 : 0 ≤ (lam.map fun x => x ^ α).sum := List.sum_nonneg fun x hx => by
    obtain ⟨y, hy, rfl⟩ := List.mem_map.1 hx
    exact pow_nonneg (hp y hy).le _
  rw [renyiEntropy, if_neg hα, this, ← Complex.ofReal_log h0, renyiOf]
  push_cast
  rfl

theorem foldl_max_greatest : ∀ (l : List ℝ) (a : ℝ), IsGreatest {x | x ∈ a :: l} (l.foldl max a)
  | [], a => by simp [IsGreatest, upperBounds]
  | b :: l, a => by
    obtain ⟨h1, h2⟩ := foldl_max_greatest l (max a b)
    constructor
    · rw [List.foldl_cons]
      rcases List.mem_cons.1 h1 with h | h
      · rw [h]
        rcases max_choice a b with h | h <;> simp [h]
      · exact List.mem_cons_of_mem _ (List.mem_cons_of_mem _ h)
    · intro x hx
      rw [List.foldl_cons]
      have ha : max a b ≤ l.foldl max (max a b) := h2 (by simp)
      rcases List.mem_cons.1 hx with rfl | hx
      · exact (le_max_left _ _).trans ha
      rcases List.mem_cons.1 hx with rfl | hx
      · exact (le_max_right _ _).trans ha
      · exact h2 (List.mem_cons_of_mem _ hx)

theorem maxR_ok {l : List ℝ} (h : l ≠ []) : ∃ v, maxR l = .ok v ∧ IsGreatest {x | x ∈ l} v := by
  match l, h with
  | a :: l, _ => exact ⟨_, rfl, foldl_max_greatest l a⟩

theorem maxC_real (a b : ℝ) : maxC a b = ((max a b : ℝ) : ℂ) := by
  unfold maxC
  simp only [Complex.ofReal_re, Complex.ofReal_im, lt_self_iff_false, and_false, or_false]
  split
  · rename_i h
    rw [max_eq_right h.le]
  · rename_i h
    rw [max_eq_left (not_lt.1 h)]

theorem maxCs_real {l : List ℝ} (h : l ≠ []) : ∃ v : ℝ, maxCs (l.map Complex.ofReal) = .ok (v : ℂ) ∧ IsGreatest {x | x ∈ l} v := by
  match l, h with
  | a :: l, _ =>
    refine ⟨_, ?_, foldl_max_greatest l a⟩
    rw [List.map_cons, maxCs]
    congr 1
    induction l generalizing a with
    | nil => rfl
    | cons b l ih => rw [List.map_cons, List.foldl_cons, maxC_real, ih (max a b) (by simp), List.foldl_cons]

/-- the list of lists of weights -/
theorem WeightRow.real {ds : List ℕ} {ψ : List ℕ → ℂ} {row : List (List ℂ)} (h : WeightRow ds ψ row) :
    ∃ lams : List (List ℝ), row = lams.map (List.map Complex.ofReal) ∧ lams.length = ds.length + 1 ∧
      ∀ m (hm : m < lams.length), SchmidtAt (ds.take m) (ds.drop m) (unitOf ds ψ) lams[m] := by
  choose! f hf using h.cut
  refine ⟨(List.range (ds.length + 1)).map f, ?_, by simp, ?_⟩
  · refine List.ext_getElem? fun m => ?_
    by_cases hm : m ≤ ds.length
    · rw [(hf m hm).1]
      simp [List.getElem?_range (show m < ds.length + 1 by omega)]
    · rw [List.getElem?_eq_none (by rw [h.len]; omega), List.getElem?_eq_none (by simp; omega)]
  · intro m hm
    have hm : m ≤ ds.length := by
      simp at hm
      omega
    simpa using (hf m hm).2

/-- a value per cut that is the same for all Schmidt decompositions: its maximum is the maximum over all cuts -/
theorem max_of_row {ds : List ℕ} {ψ : List ℕ → ℂ} {lams : List (List ℝ)} (hl : lams.length = ds.length + 1)
    (hs : ∀ m (hm : m < lams.length), SchmidtAt (ds.take m) (ds.drop m) (unitOf ds ψ) lams[m]) {f : List ℝ → ℝ}
    (hf : ∀ {m lam lam'}, SchmidtAt (ds.take m) (ds.drop m) (unitOf ds ψ) lam → SchmidtAt (ds.take m) (ds.drop m) (unitOf ds ψ) lam' → f lam = f lam')
    {v : ℝ} (hv : IsGreatest {x | x ∈ lams.map f} v) : MaxOverCuts ds ψ f v := by
  constructor
  · obtain ⟨lam, h1, h2⟩ := List.mem_map.1 hv.1
    obtain ⟨m, hm, rfl⟩ := List.getElem_of_mem h1
    exact ⟨m, by omega, _, hs m hm, h2⟩
  · rintro a ⟨m, hm, lam, h1, rfl⟩
    have hm' : m < lams.length := by omega
    rw [hf h1 (hs m hm')]
    exact hv.2 (List.mem_map_of_mem (List.getElem_mem hm'))

theorem shannon_unique {ds1 ds2 : List ℕ} {ψ : List ℕ → ℂ} {lam lam' : List ℝ} (h : SchmidtAt ds1 ds2 ψ lam) (h' : SchmidtAt ds1 ds2 ψ lam') :
    shannon lam = shannon lam' := by
  rw [shannon, shannon, h.sum_eq h']

theorem renyiOf_unique {α : ℕ} {ds1 ds2 : List ℕ} {ψ : List ℕ → ℂ} {lam lam' : List ℝ} (h : SchmidtAt ds1 ds2 ψ lam) (h' : SchmidtAt ds1 ds2 ψ lam') :
    renyiOf α lam = renyiOf α lam' := by
  rw [renyiOf, renyiOf, h.sum_eq h']

theorem vn_row {ds : List ℕ} {ψ : List ℕ → ℂ} {row : List (List ℂ)} (h : WeightRow ds ψ row) :
    ∃ v, maxR (row.map vnEntropy) = .ok v ∧ MaxOverCuts ds ψ shannon v := by
  obtain ⟨lams, rfl, hl, hs⟩ := h.real
  have e : (lams.map (List.map Complex.ofReal)).map vnEntropy = lams.map shannon := by
    rw [List.map_map]
    refine List.map_congr_left fun lam hlam => ?_
    obtain ⟨m, hm, rfl⟩ := List.getElem_of_mem hlam
    exact vnEntropy_real (hs m hm).1
  rw [e]
  obtain ⟨v, h1, h2⟩ := maxR_ok (l := lams.map shannon) (by
    intro h0
    have := congrArg List.length h0
    simp [hl] at this)
  exact ⟨v, h1, max_of_row hl hs shannon_unique h2⟩

theorem renyi_row {α : ℕ} (hα : α ≠ 1) {ds : List ℕ} {ψ : List ℕ → ℂ} {row : List (List ℂ)} (h : WeightRow ds ψ row) :
    ∃ v : ℝ, (do
      let l ← row.mapM (renyiEntropy α)
      maxCs l) = .ok (v : ℂ) ∧ MaxOverCuts ds ψ (renyiOf α) v := by
  obtain ⟨lams, rfl, hl, hs⟩ := h.real
  have e : (lams.map (List.map Complex.ofReal)).mapM (renyiEntropy α) = .ok ((lams.map (renyiOf α)).map Complex.ofReal) := by
    rw [List.map_map]
    have : ∀ ls : List (List ℝ), (∀ lam ∈ ls, ∀ x ∈ lam, 0 < x) →
        (ls.map (List.map Complex.ofReal)).mapM (renyiEntropy α) = .ok (ls.map (Complex.ofReal ∘ renyiOf α)) := by
      intro ls
      induction ls with
      | nil => intro _; rfl
      | cons a ls ih =>
        intro hp
        rw [List.map_cons, List.mapM_cons, renyiEntropy_real hα (hp a (by simp)), ok_bind, ih fun l hl => hp l (by simp [hl])]
        rfl
    refine this lams fun lam hlam => ?_
    obtain ⟨m, hm, rfl⟩ := List.getElem_of_mem hlam
    exact (hs m hm).1
  rw [e, ok_bind]
  obtain ⟨v, h1, h2⟩ := maxCs_real (l := lams.map (renyiOf α)) (by
    intro h0
    have := congrArg List.length h0
    simp [hl] at this)
  exact ⟨v, h1, max_of_row hl hs renyiOf_unique h2⟩

/-- the entropies of a state: bounds, order, and when they vanish -/
theorem entropy_bounds {ds : List ℕ} {ψ : List ℕ → ℂ} (hnz : ∃ s, InB ds s ∧ ψ s ≠ 0) {v r : ℝ} (hv : MaxOverCuts ds ψ shannon v)
    (hr : MaxOverCuts ds ψ renyiTwo r) : 0 ≤ r ∧ r ≤ v ∧ (v = 0 ↔ Unentangled ds ψ) ∧ (r = 0 ↔ Unentangled ds ψ) := by
  have zero : ∀ {f : List ℝ → ℝ} {v : ℝ}, (∀ lam : List ℝ, (∀ x ∈ lam, 0 < x) → lam.sum = 1 → 0 ≤ f lam) →
      (∀ lam : List ℝ, (∀ x ∈ lam, 0 < x) → lam.sum = 1 → (f lam = 0 ↔ lam.length = 1)) → MaxOverCuts ds ψ f v → (v = 0 ↔ Unentangled ds ψ) := by
    intro f v h0 h1 hv
    constructor
    · rintro rfl m hm lam hlam
      have := hv.2 ⟨m, hm, lam, hlam, rfl⟩
      exact (h1 lam hlam.1 (weights_sum hnz hlam)).1 (le_antisymm this (h0 lam hlam.1 (weights_sum hnz hlam)))
    · intro hu
      obtain ⟨m, hm, lam, hlam, rfl⟩ := hv.1
      exact (h1 lam hlam.1 (weights_sum hnz hlam)).2 (hu m hm lam hlam)
  refine ⟨?_, ?_, zero (fun lam hp h1 => shannon_nonneg hp h1) (fun lam hp h1 => shannon_eq_zero hp h1) hv,
    zero (fun lam hp h1 => renyiTwo_nonneg hp h1) (fun lam hp h1 => renyiTwo_eq_zero hp h1) hr⟩
  · obtain ⟨m, hm, lam, hlam, rfl⟩ := hr.1
    exact renyiTwo_nonneg hlam.1 (weights_sum hnz hlam)
  · obtain ⟨m, hm, lam, hlam, rfl⟩ := hr.1
    exact (renyiTwo_le_shannon hlam.1 (weights_sum hnz hlam)).trans (hv.2 ⟨m, hm, lam, hlam, rfl⟩)

theorem forall₂_mapM {α β γ : Type} {R : α → β → Prop} {S : γ → β → Prop} {f : α → Py γ} (hf : ∀ a b, R a b → ∃ c, f a = .ok c ∧ S c b)
    {as : List α} {bs : List β} (h : List.Forall₂ R as bs) : ∃ cs, as.mapM f = .ok cs ∧ List.Forall₂ S cs bs := by
  induction h with
  | nil => exact ⟨[], rfl, .nil⟩
  | cons h1 h2 ih =>
    obtain ⟨c, e1, s1⟩ := hf _ _ h1
    obtain ⟨cs, e2, s2⟩ := ih
    refine ⟨c :: cs, ?_, .cons s1 s2⟩
    rw [List.mapM_cons, e1, ok_bind, e2]
    rfl

/-- rectangular exactly if no state is entangled: the list of weights at the left end always has one entry -/
theorem rectangular_iff {ds : List ℕ} {rows : List (List (List ℂ))} {ψs : List (List ℕ → ℂ)} (h : List.Forall₂ (fun row ψ => WeightRow ds ψ row) rows ψs)
    (hnz : ∀ ψ ∈ ψs, ∃ s, InB ds s ∧ ψ s ≠ 0) : rectangular rows = true ↔ ∀ ψ ∈ ψs, Unentangled ds ψ := by
  have one : ∀ row ψ, WeightRow ds ψ row → (∃ s, InB ds s ∧ ψ s ≠ 0) → ∃ s l, row = s :: l ∧ s.length = 1 := by
    intro row ψ hrow hn
    obtain ⟨lam, h1, h2⟩ := hrow.cut 0 (by omega)
    have := weights_left_end hn h2
    match row, h1 with
    | s :: l, h1 =>
      refine ⟨s, l, rfl, ?_⟩
      have : s = lam.map Complex.ofReal := by simpa using h1
      rw [this, List.length_map]
      assumption
  have all : ∀ row ψ, WeightRow ds ψ row → (row.all (fun s' => s'.length == 1) = true ↔ Unentangled ds ψ) := by
    intro row ψ hrow
    rw [List.all_eq_true]
    constructor
    · intro ha m hm lam hlam
      obtain ⟨lam', h1, h2⟩ := hrow.cut m hm
      have := ha _ (List.mem_of_getElem? h1)
      rw [List.length_map] at this
      rw [(hlam.perm h2).length_eq]
      simpa using this
    · intro hu s hs
      obtain ⟨m, hm, rfl⟩ := List.getElem_of_mem hs
      have hm' : m ≤ ds.length := by
        rw [hrow.len] at hm
        omega
      obtain ⟨lam, h1, h2⟩ := hrow.cut m hm'
      rw [List.getElem?_eq_getElem hm] at h1
      rw [Option.some.inj h1, List.length_map]
      simpa using hu m hm' lam h2
  match rows, ψs, h with
  | [], [], _ => simp [rectangular]
  | row :: rows, ψ :: ψs, h =>
    obtain ⟨s, l, e, hs⟩ := one row ψ (List.forall₂_cons.1 h).1 (hnz ψ (by simp))
    have key : rectangular (row :: rows) = (row :: rows).all fun r' => r'.length == row.length && r'.all fun s' => s'.length == 1 := by
      simp only [e, rectangular, hs]
    rw [key, List.all_eq_true]
    have hlen : row.length = ds.length + 1 := (List.forall₂_cons.1 h).1.len
    rw [hlen]
    clear key e
    generalize row :: rows = rs at h
    generalize ψ :: ψs = ps at h
    induction h with
    | nil => simp
    | cons h1 h2 ih =>
      simp only [List.forall_mem_cons, ih, h1.len, beq_self_eq_true, Bool.true_and, all _ _ h1]

theorem bond_le {D : ℕ} : ∀ {ds : List ℕ} {As : List (ND ℂ)} {l n : ℕ}, MpsChain ds As l n → l ≤ D → (∀ A ∈ As, A.dim 2 ≤ D) → n ≤ D
  | [], [], l, n, h, hl, _ => by
    cases h
    exact hl
  | d :: ds, A :: As, l, n, h, hl, hA => by
    obtain ⟨m, h1, h2⟩ := h
    refine bond_le h2 ?_ fun B hB => hA B (by simp [hB])
    have := hA A (by simp)
    rwa [ND.dim, h1] at this

/-- no more Schmidt weights than the largest bond dimension, and the entropy at most its logarithm -/
theorem entropy_bond {x : FMPS ℂ} {ds : List ℕ} (hx : x.Holds ds) (hnz : ∃ s, InB ds s ∧ psi x.data s ≠ 0) {D : ℕ} (hD : 1 ≤ D) (hA : ∀ A ∈ x.data, A.dim 2 ≤ D)
    {v h0 : ℝ} (hv : MaxOverCuts ds (psi x.data) shannon v) (hz : MaxOverCuts ds (psi x.data) (renyiOf 0) h0) : v ≤ h0 ∧ h0 ≤ Real.log D := by
  constructor
  · obtain ⟨m, hm, lam, hlam, rfl⟩ := hv.1
    refine (shannon_le_log hlam.1 (weights_sum hnz hlam)).trans ?_
    rw [← renyiOf_zero]
    exact hz.2 ⟨m, hm, lam, hlam, rfl⟩
  · obtain ⟨m, hm, lam, hlam, rfl⟩ := hz.1
    rw [renyiOf_zero]
    obtain ⟨n, h1, h2⟩ := chain_cut hx.chain m
    have hn : n ≤ D := bond_le h1 hD fun A hA' => hA A (List.mem_of_mem_take hA')
    have hl : lam.length ≤ n := schmidt_rank_bond hx.chain (by
      have := hx.ne
      have hl := hx.chain.length_eq
      intro h0
      rw [h0] at hl
      exact this (List.eq_nil_of_length_eq_zero hl.symm)) h1 hlam
    have hpos : 0 < lam.length := by
      have := weights_sum hnz hlam
      cases lam with
      | nil => simp at this
      | cons => simp
    exact Real.log_le_log (by exact_mod_cast hpos) (by exact_mod_cast hl.trans hn)

/-- **C100** `von_neumann()` (numpy before 1.24): for every recorded state the largest entanglement entropy over all cuts.  It is not negative, at
most the logarithm of the bond dimension, and zero exactly for the states that are not entangled across any cut. -/
theorem vonNeumann_hist {svd : Svd} {eig : Eig} (hsvd : SVDLaw svd) (heig : EigOrthoLaw eig) {L d : ℕ} (hL : 2 ≤ L) {tr : Traj} {log : List (FMPS ℂ)}
    (h : Aligned L d tr log) (hne : log ≠ []) (hlive : ∀ x ∈ log, Live L d x) :
    ∃ vs, vonNeumann false svd eig tr none = .ok vs ∧ List.Forall₂ (fun v (x : FMPS ℂ) => MaxOverCuts (List.replicate L d) (psi x.data) shannon v) vs log := by
  obtain ⟨rows, e, hr⟩ := schmidts_hist hsvd heig hL h hne hlive
  obtain ⟨vs, e1, h1⟩ := forall₂_mapM (f := fun S => maxR (S.map vnEntropy))
    (S := fun v (x : FMPS ℂ) => MaxOverCuts (List.replicate L d) (psi x.data) shannon v) (fun row x hrow => vn_row hrow) hr
  exact ⟨vs, by rw [vonNeumann, e, ok_bind, npArray, Bool.false_and, if_neg (by decide), ok_bind, e1], h1⟩

/-- **C100** `renyi(α)` (numpy before 1.24), `α ≠ 1`: for every recorded state the largest Rényi entropy over all cuts, a real number. -/
theorem renyi_hist {svd : Svd} {eig : Eig} (hsvd : SVDLaw svd) (heig : EigOrthoLaw eig) {L d : ℕ} (hL : 2 ≤ L) {tr : Traj} {log : List (FMPS ℂ)}
    (h : Aligned L d tr log) (hne : log ≠ []) (hlive : ∀ x ∈ log, Live L d x) {α : ℕ} (hα : α ≠ 1) :
    ∃ vs, renyi false svd eig tr none α = .ok vs ∧
      List.Forall₂ (fun (z : ℂ) (x : FMPS ℂ) => ∃ v : ℝ, z = v ∧ MaxOverCuts (List.replicate L d) (psi x.data) (renyiOf α) v) vs log := by
  obtain ⟨rows, e, hr⟩ := schmidts_hist hsvd heig hL h hne hlive
  obtain ⟨vs, e1, h1⟩ := forall₂_mapM (f := fun S => do
      let l ← S.mapM (renyiEntropy α)
      maxCs l)
    (S := fun (z : ℂ) (x : FMPS ℂ) => ∃ v : ℝ, z = v ∧ MaxOverCuts (List.replicate L d) (psi x.data) (renyiOf α) v) (fun row x hrow => by
      obtain ⟨v, e, hv⟩ := renyi_row hα hrow
      exact ⟨_, e, v, rfl, hv⟩) hr
  exact ⟨vs, by rw [renyi, e, ok_bind, npArray, Bool.false_and, if_neg (by decide), ok_bind, e1], h1⟩

theorem Ok.bonds {L d : ℕ} {x : FMPS ℂ} (ox : Ok L d x) (hx : Live L d x) : 1 ≤ x.D ∧ ∀ A ∈ x.data, A.dim 2 ≤ x.D := by
  have hle : ∀ A ∈ x.data, A.dim 2 ≤ x.D := by
    intro A hA
    have := ox.std ▸ List.mem_map_of_mem (f := ND.shape) hA
    obtain ⟨i, -, hi⟩ := List.mem_map.1 this
    rw [ND.dim, ← hi]
    exact min_le_right _ _
  refine ⟨?_, hle⟩
  have hl := ox.holds.chain.length_eq
  have hne := ox.holds.ne
  match hx' : x.data with
  | [] =>
    rw [hx'] at hl
    exact absurd (List.eq_nil_of_length_eq_zero hl.symm) hne
  | A :: As =>
    have hA : A ∈ x.data := by simp [hx']
    have h1 := hle A hA
    have h2 := ox.std ▸ List.mem_map_of_mem (f := ND.shape) hA
    obtain ⟨i, -, hi⟩ := List.mem_map.1 h2
    have h3 := hx.pos A hA (A.dim 2) (by simp [ND.dim, ← hi])
    omega

/-- **C100** for every recorded state `0 ≤ renyi(2) ≤ von_neumann() ≤ renyi(0) ≤ log D`, and the first two vanish exactly for the states that are not
entangled. -/
theorem entropy_chain {L d : ℕ} {x : FMPS ℂ} (ox : Ok L d x) (hx : Live L d x) {v r z : ℝ}
    (hv : MaxOverCuts (List.replicate L d) (psi x.data) shannon v) (hr : MaxOverCuts (List.replicate L d) (psi x.data) (renyiOf 2) r)
    (hz : MaxOverCuts (List.replicate L d) (psi x.data) (renyiOf 0) z) :
    0 ≤ r ∧ r ≤ v ∧ v ≤ z ∧ z ≤ Real.log x.D ∧ (v = 0 ↔ Unentangled (List.replicate L d) (psi x.data)) ∧ (r = 0 ↔ Unentangled (List.replicate L d) (psi x.data)) := by
  have hr' : MaxOverCuts (List.replicate L d) (psi x.data) renyiTwo r := by
    simpa only [MaxOverCuts, renyiOf_two] using hr
  obtain ⟨h1, h2, h3, h4⟩ := entropy_bounds hx.nonzero hv hr'
  obtain ⟨h5, h6⟩ := entropy_bond ox.holds hx.nonzero (ox.bonds hx).1 (ox.bonds hx).2 hv hz
  exact ⟨h1, h2, h5, h6, h3, h4⟩

theorem psis_hist {L d : ℕ} {rows : List (List (List ℂ))} {log : List (FMPS ℂ)}
    (hr : List.Forall₂ (fun row (x : FMPS ℂ) => WeightRow (List.replicate L d) (psi x.data) row) rows log) :
    List.Forall₂ (fun row ψ => WeightRow (List.replicate L d) ψ row) rows (log.map fun x => psi x.data) := by
  rw [List.forall₂_map_right_iff]
  exact hr

/-- **C100** (violated): with numpy 1.24 or later `von_neumann()` raises a `ValueError` as soon as one recorded state is entangled across one cut:
the lists of weights do not have the same length. -/
theorem vonNeumann_strict_fails {svd : Svd} {eig : Eig} (hsvd : SVDLaw svd) (heig : EigOrthoLaw eig) {L d : ℕ} (hL : 2 ≤ L) {tr : Traj} {log : List (FMPS ℂ)}
    (h : Aligned L d tr log) (hlive : ∀ x ∈ log, Live L d x) {x : FMPS ℂ} (hx : x ∈ log)
    (hent : ¬ Unentangled (List.replicate L d) (psi x.data)) (α : ℕ) :
    vonNeumann true svd eig tr none = .error .valueError ∧ renyi true svd eig tr none α = .error .valueError := by
  obtain ⟨rows, e, hr⟩ := schmidts_hist hsvd heig hL h (List.ne_nil_of_mem hx) hlive
  have : rectangular rows = false := by
    rw [← Bool.not_eq_true]
    intro hrec
    refine hent ((rectangular_iff (psis_hist hr) ?_).1 hrec _ (List.mem_map_of_mem hx))
    intro ψ hψ
    obtain ⟨y, hy, rfl⟩ := List.mem_map.1 hψ
    exact (hlive y hy).nonzero
  constructor
  · rw [vonNeumann, e, ok_bind, npArray, this]
    rfl
  · rw [renyi, e, ok_bind, npArray, this]
    rfl

/-- **C100** with numpy 1.24 or later the values of `von_neumann()`, where there are any, are all zero. -/
theorem vonNeumann_strict_zero {svd : Svd} {eig : Eig} (hsvd : SVDLaw svd) (heig : EigOrthoLaw eig) {L d : ℕ} (hL : 2 ≤ L) {tr : Traj} {log : List (FMPS ℂ)}
    (h : Aligned L d tr log) (hne : log ≠ []) (hlive : ∀ x ∈ log, Live L d x) {vs : List ℝ} (hv : vonNeumann true svd eig tr none = .ok vs) :
    vs = List.replicate log.length 0 := by
  obtain ⟨ws, e, hw⟩ := vonNeumann_hist hsvd heig hL h hne hlive
  have hun : ∀ x ∈ log, Unentangled (List.replicate L d) (psi x.data) := by
    intro x hx
    by_contra hc
    rw [(vonNeumann_strict_fails hsvd heig hL h hlive hx hc 0).1] at hv
    cases hv
  have hvw : vs = ws := by
    obtain ⟨rows, e1, -⟩ := schmidts_hist hsvd heig hL h hne hlive
    rw [vonNeumann, e1, ok_bind, npArray] at hv e
    rw [Bool.false_and, if_neg (by decide), ok_bind] at e
    split at hv
    · cases hv
    · rw [ok_bind, e] at hv
      exact (Except.ok.inj hv).symm
  subst hvw
  clear hv e h hne
  induction hw with
  | nil => rfl
  | cons h1 h2 ih =>
    rename_i v x vs log
    rw [List.length_cons, List.replicate_succ, ← ih (fun y hy => hlive y (by simp [hy])) (fun y hy => hun y (by simp [hy]))]
    congr 1
    obtain ⟨m, hm, lam, hlam, rfl⟩ := h1.1
    exact (shannon_eq_zero hlam.1 (weights_sum (hlive x (by simp)).nonzero hlam)).2 (hun x (by simp) m hm lam hlam)

/-- **C100** (violated): `renyi(1)`, the limit in which the Rényi entropy is the entanglement entropy, raises. -/
theorem renyi_one {svd : Svd} {eig : Eig} (hsvd : SVDLaw svd) (heig : EigOrthoLaw eig) {L d : ℕ} (hL : 2 ≤ L) {tr : Traj} {log : List (FMPS ℂ)}
    (h : Aligned L d tr log) (hne : log ≠ []) (hlive : ∀ x ∈ log, Live L d x) : renyi false svd eig tr none 1 = .error .exception := by
  obtain ⟨rows, e, hr⟩ := schmidts_hist hsvd heig hL h hne hlive
  rw [renyi, e, ok_bind, npArray, Bool.false_and, if_neg (by decide), ok_bind]
  match rows, log, hr with
  | [], [], _ => exact absurd rfl hne
  | row :: rows, x :: log, hr =>
    have := (List.forall₂_cons.1 hr).1.len
    match row, this with
    | s :: row, _ => simp [List.mapM_cons, renyiEntropy]

/-! ### after `edint` -/

theorem ed_nonzero {L d : ℕ} {x : ND ℂ} (h : ∃ k < d ^ L, x.val [k] ≠ 0) : ∃ s, InB (List.replicate L d) s ∧ edAmp L d x s ≠ 0 := by
  obtain ⟨k, hk, hne⟩ := h
  exact ⟨_, InB_unravel (by simpa using hk), by rw [edAmp, ravel_unravel (by simpa using hk)]; exact hne⟩

/-- **C100** after `edint` (numpy before 1.24): the largest entanglement entropies of the entries of `ed_history`. -/
theorem vonNeumann_ed {svd : Svd} {eig : Eig} (hsvd : SVDLaw svd) (heig : EigOrthoLaw eig) {L d : ℕ} (hd : 0 < d) (hL : 0 < L) {tr : Traj}
    (hm : tr.mps.L = L ∧ tr.mps.d = d) {ed : List (ND ℂ)} (hed : ∀ x ∈ ed, x.shape = [d ^ L] ∧ ∃ k < d ^ L, x.val [k] ≠ 0) :
    ∃ vs, vonNeumann false svd eig tr (some ed) = .ok vs ∧
      List.Forall₂ (fun v (x : ND ℂ) => MaxOverCuts (List.replicate L d) (edAmp L d x) shannon v) vs ed := by
  obtain ⟨rows, e, hr⟩ := schmidts_ed hsvd heig hd hL hm hed
  obtain ⟨vs, e1, h1⟩ := forall₂_mapM (f := fun S => maxR (S.map vnEntropy))
    (S := fun v (x : ND ℂ) => MaxOverCuts (List.replicate L d) (edAmp L d x) shannon v) (fun row x hrow => vn_row hrow) hr
  exact ⟨vs, by rw [vonNeumann, e, ok_bind, npArray, Bool.false_and, if_neg (by decide), ok_bind, e1], h1⟩

/-- **C100** (violated) after `edint` with numpy 1.24 or later: `ValueError` as soon as one entry is entangled. -/
theorem vonNeumann_ed_strict_fails {svd : Svd} {eig : Eig} (hsvd : SVDLaw svd) (heig : EigOrthoLaw eig) {L d : ℕ} (hd : 0 < d) (hL : 0 < L) {tr : Traj}
    (hm : tr.mps.L = L ∧ tr.mps.d = d) {ed : List (ND ℂ)} (hed : ∀ x ∈ ed, x.shape = [d ^ L] ∧ ∃ k < d ^ L, x.val [k] ≠ 0) {x : ND ℂ} (hx : x ∈ ed)
    (hent : ¬ Unentangled (List.replicate L d) (edAmp L d x)) : vonNeumann true svd eig tr (some ed) = .error .valueError := by
  obtain ⟨rows, e, hr⟩ := schmidts_ed hsvd heig hd hL hm hed
  have : rectangular rows = false := by
    rw [← Bool.not_eq_true]
    intro hrec
    have hr' : List.Forall₂ (fun row ψ => WeightRow (List.replicate L d) ψ row) rows (ed.map fun x => edAmp L d x) := by
      rw [List.forall₂_map_right_iff]
      exact hr
    refine hent ((rectangular_iff hr' ?_).1 hrec _ (List.mem_map_of_mem hx))
    intro ψ hψ
    obtain ⟨y, hy, rfl⟩ := List.mem_map.1 hψ
    exact ed_nonzero (hed y hy).2
  rw [vonNeumann, e, ok_bind, npArray, this]
  rfl

/-! ### the hypotheses are met -/

/-- the two-site state with amplitudes `1` at `00` and `11` -/
def bellChain : FMPS ℂ :=
  ⟨[⟨[2, 1, 2], fun i => if i.getD 0 0 = i.getD 2 0 then 1 else 0⟩, ⟨[2, 2, 1], fun i => if i.getD 0 0 = i.getD 1 0 then 1 else 0⟩],
    2, 2, 2, false, false, none, none⟩

theorem bellChain_ok : Ok 2 2 bellChain := by
  refine ⟨⟨⟨2, rfl, 1, rfl, rfl⟩, by simp, rfl, rfl⟩, ?_⟩
  unfold FMPS.Standard bellChain
  simp [List.range_succ, bondAt]

theorem bellChain_psi (s t : ℕ) (hs : s < 2) (ht : t < 2) : psi bellChain.data [s, t] = if s = t then 1 else 0 := by
  rw [psi_eq_amp (ss := [s, t]) bellChain_ok.holds.chain (by simp [bellChain]) rfl]
  simp [bellChain, ND.dim, sum_range_succ]
  interval_cases s <;> interval_cases t <;> simp

theorem bellChain_live : Live 2 2 bellChain := by
  refine ⟨by simp [PosDims, bellChain], [0, 0], ⟨by decide, by decide, trivial⟩, ?_⟩
  rw [bellChain_psi 0 0 (by decide) (by decide)]
  simp

theorem bellChain_entangled : ¬ Unentangled [2, 2] (psi bellChain.data) := by
  intro hu
  obtain ⟨svd, hsvd⟩ := svdLaw_exists
  obtain ⟨eig, heig⟩ := eigOrthoLaw_exists
  obtain ⟨row, -, hrow⟩ := schmidtRow_ok hsvd heig bellChain_ok.holds bellChain_ok.uniform bellChain_live.pos bellChain_live.nonzero
  obtain ⟨lam, -, hlam⟩ := hrow.cut 1 (by decide)
  have hl := hu 1 (by decide) lam hlam
  obtain ⟨-, u, v, h, -⟩ := hlam
  have e : ∀ s < 2, ∀ t < 2, unitOf [2, 2] (psi bellChain.data) [s, t] = u 0 [s] * (Real.sqrt (lam.getD 0 0) : ℂ) * v 0 [t] := by
    intro s hs t ht
    have := h [s] ⟨hs, trivial⟩ [t] ⟨ht, trivial⟩
    rw [hl, sum_range_one] at this
    exact this
  have hn : Real.sqrt (sumIdx [2, 2] fun s => ‖psi bellChain.data s‖ ^ 2) ≠ 0 := by
    refine (Real.sqrt_pos.2 ?_).ne'
    have h0 : InB [2, 2] [0, 0] := ⟨by decide, by decide, trivial⟩
    refine sumIdx_pos (fun _ => by positivity) h0 ?_
    rw [bellChain_psi 0 0 (by decide) (by decide)]
    simp
  have hn' : ((Real.sqrt (sumIdx [2, 2] fun s => ‖psi bellChain.data s‖ ^ 2) : ℝ) : ℂ) ≠ 0 := by exact_mod_cast hn
  have h00 := e 0 (by decide) 0 (by decide)
  have h01 := e 0 (by decide) 1 (by decide)
  have h10 := e 1 (by decide) 0 (by decide)
  have h11 := e 1 (by decide) 1 (by decide)
  unfold unitOf at h00 h01 h10 h11
  rw [bellChain_psi _ _ (by decide) (by decide)] at h00 h01 h10 h11
  simp only [if_true, zero_ne_one, one_ne_zero, if_false, zero_div] at h00 h01 h10 h11
  have : (1 / ((Real.sqrt (sumIdx [2, 2] fun s => ‖psi bellChain.data s‖ ^ 2) : ℝ) : ℂ)) * (1 / ((Real.sqrt (sumIdx [2, 2] fun s => ‖psi bellChain.data s‖ ^ 2) : ℝ) : ℂ)) = 0 := by
    calc _ = (u 0 [0] * (Real.sqrt (lam.getD 0 0) : ℂ) * v 0 [0]) * (u 0 [1] * (Real.sqrt (lam.getD 0 0) : ℂ) * v 0 [1]) := by
          rw [← h00, ← h11]
      _ = (u 0 [0] * (Real.sqrt (lam.getD 0 0) : ℂ) * v 0 [1]) * (u 0 [1] * (Real.sqrt (lam.getD 0 0) : ℂ) * v 0 [0]) := by ring
      _ = 0 := by rw [← h01, zero_mul]
  rw [mul_self_eq_zero, one_div, inv_eq_zero] at this
  exact hn' this

/-- a trajectory with one entry, the state above -/
noncomputable def bellTraj : Traj := ⟨bellChain, bellChain, [2, 2], [(serializeReal_ok bellChain_ok).choose]⟩

theorem bellTraj_aligned : Aligned 2 2 bellTraj [bellChain] :=
  ⟨bellChain_ok, .cons (serializeReal_ok bellChain_ok).choose_spec .nil, by simp [bellChain_ok], [2], 2, rfl, .cons bellChain_ok.std .nil, bellChain_ok.std⟩

/-- **C100** (violated), a concrete trajectory: no values for the Bell pair. -/
theorem bell_fails {svd : Svd} {eig : Eig} (hsvd : SVDLaw svd) (heig : EigOrthoLaw eig) :
    vonNeumann true svd eig bellTraj none = .error .valueError :=
  (vonNeumann_strict_fails hsvd heig (le_refl 2) bellTraj_aligned (by simp [bellChain_live]) (x := bellChain) (by simp) bellChain_entangled 2).1

example {svd : Svd} {eig : Eig} (hsvd : SVDLaw svd) (heig : EigOrthoLaw eig) :=
  schmidts_hist hsvd heig (le_refl 2) bellTraj_aligned (by simp) (by simp [bellChain_live])
example {svd : Svd} {eig : Eig} (hsvd : SVDLaw svd) (heig : EigOrthoLaw eig) :=
  vonNeumann_hist hsvd heig (le_refl 2) bellTraj_aligned (by simp) (by simp [bellChain_live])
example {svd : Svd} {eig : Eig} (hsvd : SVDLaw svd) (heig : EigOrthoLaw eig) :=
  renyi_hist hsvd heig (le_refl 2) bellTraj_aligned (by simp) (by simp [bellChain_live]) (α := 2) (by decide)
example {svd : Svd} {eig : Eig} (hsvd : SVDLaw svd) (heig : EigOrthoLaw eig) :=
  renyi_one hsvd heig (le_refl 2) bellTraj_aligned (by simp) (by simp [bellChain_live])
example {svd : Svd} {eig : Eig} (hsvd : SVDLaw svd) (heig : EigOrthoLaw eig) :=
  schmidts_ed hsvd heig (L := 2) (d := 2) (by decide) (by decide) (tr := bellTraj) ⟨rfl, rfl⟩ (ed := [⟨[4], fun _ => 1⟩])
    (by simp only [List.mem_singleton, forall_eq]; exact ⟨rfl, 0, by decide, by simp⟩)

end Tdvp

end Xmps
