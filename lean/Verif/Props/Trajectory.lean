import Verif.Model.Tdvp
import Verif.Props.Structure

/-! # Property C35: the bookkeeping of `fTDVP.Trajectory` -/

namespace Xmps.Tdvp

open Xmps.Spec

variable {K : Type}

/-! ### bond dimension of a standard chain -/

theorem mem_foldl_max : ∀ (l : List ℕ) (a : ℕ), (∀ n ∈ a :: l, n ≤ l.foldl max a) ∧ l.foldl max a ∈ a :: l
  | [], a => by simp
  | b :: l, a => by
    obtain ⟨h1, h2⟩ := mem_foldl_max l (max a b)
    simp only [List.foldl_cons, List.mem_cons] at h1 h2 ⊢
    refine ⟨?_, ?_⟩
    · have := h1 _ (Or.inl rfl)
      rintro n (rfl | rfl | hn)
      · exact le_trans (le_max_left _ _) this
      · exact le_trans (le_max_right _ _) this
      · exact h1 _ (Or.inr hn)
    · rcases h2 with h2 | h2
      · rw [h2]
        rcases max_choice a b with h | h <;> simp [h]
      · exact Or.inr (Or.inr h2)

theorem pyMax_mem {l : List ℕ} {M : ℕ} (h : pyMax l = .ok M) : (∀ n ∈ l, n ≤ M) ∧ M ∈ l := by
  cases l with
  | nil => cases h
  | cons a l =>
    simp only [pyMax, Except.ok.injEq] at h
    subst h
    exact mem_foldl_max l a

theorem mapM_ok_mem {α β : Type} {f : α → Py β} : ∀ {l : List α} {m : List β}, l.mapM f = .ok m →
    (∀ a ∈ l, ∃ b ∈ m, f a = .ok b) ∧ ∀ b ∈ m, ∃ a ∈ l, f a = .ok b
  | [], m, h => by cases h; simp
  | a :: l, m, h => by
    rw [List.mapM_cons] at h
    cases ha : f a with
    | error e => rw [ha] at h; cases h
    | ok b =>
      rw [ha, ok_bind] at h
      cases hl : l.mapM f with
      | error e => rw [hl] at h; cases h
      | ok m' =>
        rw [hl] at h
        cases h
        obtain ⟨h1, h2⟩ := mapM_ok_mem hl
        refine ⟨?_, ?_⟩
        · intro x hx
          rcases List.mem_cons.1 hx with rfl | hx
          · exact ⟨b, by simp, ha⟩
          · obtain ⟨c, hc, e⟩ := h1 x hx
            exact ⟨c, by simp [hc], e⟩
        · intro x hx
          rcases List.mem_cons.1 hx with rfl | hx
          · exact ⟨a, by simp, ha⟩
          · obtain ⟨c, hc, e⟩ := h2 x hx
            exact ⟨c, by simp [hc], e⟩

theorem bondDimension_mem {data : List (ND K)} {M : ℕ} (h : FMPS.bondDimension data = .ok M) :
    (∀ A ∈ data, ∀ n ∈ A.shape.tail, n ≤ M) ∧ ∃ A ∈ data, M ∈ A.shape.tail := by
  unfold FMPS.bondDimension at h
  cases hm : data.mapM (fun x => pyMax x.shape.tail) with
  | error e => rw [hm] at h; cases h
  | ok ms =>
    rw [hm, ok_bind] at h
    obtain ⟨h1, h2⟩ := pyMax_mem h
    obtain ⟨h3, h4⟩ := mapM_ok_mem hm
    refine ⟨fun A hA n hn => ?_, ?_⟩
    · obtain ⟨b, hb, e⟩ := h3 A hA
      exact le_trans ((pyMax_mem e).1 n hn) (h1 b hb)
    · obtain ⟨A, hA, e⟩ := h4 M h2
      exact ⟨A, hA, (pyMax_mem e).2⟩

theorem bind_eq_ok {α β : Type} {e : Py α} {f : α → Py β} {b : β} (h : (e >>= f) = .ok b) : ∃ a, e = .ok a ∧ f a = .ok b := by
  cases e with
  | error e => cases h
  | ok a => exact ⟨a, rfl, h⟩

theorem init_D {data : List (ND K)} {d : Option ℕ} {x : FMPS K} (h : FMPS.init data d = .ok x) :
    FMPS.bondDimension x.data = .ok x.D := by
  have key : ∀ d' : ℕ, (do let D ← FMPS.bondDimension data; (.ok { data := data, L := data.length, d := d', D := D } : Py (FMPS K))) = .ok x →
      FMPS.bondDimension x.data = .ok x.D := by
    intro d' h
    obtain ⟨M, h1, h2⟩ := bind_eq_ok h
    cases h2
    exact h1
  cases d with
  | some d => exact key d h
  | none =>
    obtain ⟨A, -, h⟩ := bind_eq_ok h
    obtain ⟨d', -, h⟩ := bind_eq_ok h
    exact key d' h

theorem deserialize_D [Zero K] {v : List K} {L d D : Option ℕ} {st : Option (List (List ℕ))} {y : FMPS K}
    (h : FMPS.deserialize v L d D st = .ok y) : FMPS.bondDimension y.data = .ok y.D := by
  have key : ∀ st', (do let data ← FMPS.cutUp v st'; FMPS.init data) = .ok y → FMPS.bondDimension y.data = .ok y.D := by
    intro st' h
    obtain ⟨data, h1, h2⟩ := bind_eq_ok h
    exact init_D h2
  unfold FMPS.deserialize at h
  simp only [] at h
  split at h
  · exact key _ h
  · obtain ⟨st', -, h⟩ := bind_eq_ok h
    exact key _ h
  · cases h

theorem deserializeReal_D {v : List ℝ} {L d D : Option ℕ} {st : Option (List (List ℕ))} {y : FMPS ℂ}
    (h : FMPS.deserializeReal v L d D st = .ok y) : FMPS.bondDimension y.data = .ok y.D := by
  obtain ⟨w, -, h⟩ := bind_eq_ok h
  exact deserialize_D h

theorem shapes_eqv {a b : List (ND K)} (h : List.Forall₂ (· ≈ ·) a b) : a.map ND.shape = b.map ND.shape := by
  induction h with
  | nil => rfl
  | cons h _ ih => rw [List.map_cons, List.map_cons, h.1, ih]

/-- A standard chain is standard for its own bond dimension. -/
theorem standard_D {y : FMPS K} {D : ℕ} (hs : y.Standard D) (hb : FMPS.bondDimension y.data = .ok y.D) : y.Standard y.D := by
  obtain ⟨h1, A, hA, hM⟩ := bondDimension_mem hb
  have hmem : ∀ i < y.L, ∃ A ∈ y.data, A.shape = [y.d, bondAt y.L y.d D i, bondAt y.L y.d D (i + 1)] := by
    intro i hi
    have : [y.d, bondAt y.L y.d D i, bondAt y.L y.d D (i + 1)] ∈ y.data.map ND.shape := by
      rw [hs]
      exact List.mem_map.2 ⟨i, by simpa using hi, rfl⟩
    simpa using this
  have hle : ∀ i < y.L, bondAt y.L y.d D i ≤ y.D ∧ bondAt y.L y.d D (i + 1) ≤ y.D := by
    intro i hi
    obtain ⟨A, hA, e⟩ := hmem i hi
    exact ⟨h1 A hA _ (by simp [e]), h1 A hA _ (by simp [e])⟩
  have hDD : y.D ≤ D := by
    have : A.shape ∈ y.data.map ND.shape := List.mem_map.2 ⟨A, hA, rfl⟩
    rw [hs] at this
    obtain ⟨i, -, e⟩ := List.mem_map.1 this
    rw [← e] at hM
    simp only [List.tail_cons, List.mem_cons, List.not_mem_nil, or_false] at hM
    rcases hM with h | h <;> rw [h] <;> exact min_le_right _ _
  have key : ∀ a, min a D ≤ y.D → min a D = min a y.D := by intro a; omega
  unfold FMPS.Standard
  rw [hs]
  apply List.map_congr_left
  intro i hi
  obtain ⟨a, b⟩ := hle i (by simpa using hi)
  unfold bondAt at a b ⊢
  rw [key _ a, key _ b]

/-! ### the contract of the parameters -/

/-- The state is a chain of `L` sites of dimension `d` in the standard structure for its attribute `D`. -/
structure Ok (L d : ℕ) (x : FMPS ℂ) : Prop where
  holds : x.Holds (List.replicate L d)
  std : x.Standard x.D

theorem Ok.L {L d : ℕ} {x : FMPS ℂ} (h : Ok L d x) : x.L = L := by simpa using h.holds.len

theorem Ok.d {L d : ℕ} {x : FMPS ℂ} (h : Ok L d x) : x.d = d := by
  have h1 := h.holds.d
  have h2 := h.holds.ne
  cases L with
  | zero => simp at h2
  | succ n => simpa [List.replicate_succ] using h1

/-- Same shapes. -/
def SameShape (x y : FMPS ℂ) : Prop := x.data.map ND.shape = y.data.map ND.shape

theorem standard_same {L d D : ℕ} {x y : FMPS ℂ} (hx : Ok L d x) (hy : Ok L d y) (h : SameShape x y) (hs : y.Standard D) : x.Standard D := by
  unfold FMPS.Standard at hs ⊢
  unfold SameShape at h
  rw [h, hs, hx.L, hx.d, hy.L, hy.d]

/-- The operation succeeds and keeps the shapes. -/
def Keeps (L d : ℕ) (f : FMPS ℂ → Py (FMPS ℂ)) : Prop := ∀ x, Ok L d x → ∃ y, f x = .ok y ∧ Ok L d y ∧ SameShape y x

/-- The recorded vector `v` is the state `x`. -/
def Rec (x : FMPS ℂ) (v : List ℝ) : Prop := x.serializeReal = .ok v

theorem Rec.read {L d D : ℕ} (hL : 2 ≤ L) {x : FMPS ℂ} {v : List ℝ} (h : Rec x v) (hx : Ok L d x) (hs : x.Standard D) :
    ∃ y, FMPS.deserializeReal v (some L) (some d) (some D) none = .ok y ∧ List.Forall₂ (· ≈ ·) y.data x.data ∧ Ok L d y := by
  obtain ⟨r, y, h1, h2, h3, h4⟩ := FMPS.deserializeReal_standard hx.holds (by rw [hx.L]; exact hL) hs
  rw [Rec, h1] at h
  cases h
  rw [hx.L, hx.d] at h2
  have hsh : y.data.map ND.shape = x.data.map ND.shape := shapes_eqv h3
  have hyL : y.L = L := by simpa using h4.len
  have hyd : y.d = d := by rw [h4.d, ← hx.holds.d, hx.d]
  refine ⟨y, h2, h3, h4, standard_D (D := D) ?_ (deserializeReal_D h2)⟩
  unfold FMPS.Standard at hs ⊢
  rw [hsh, hs, hyL, hyd, hx.L, hx.d]

theorem serializeReal_ok {L d : ℕ} {x : FMPS ℂ} (hx : Ok L d x) : ∃ v, Rec x v := by
  obtain ⟨r, y, h1, -⟩ := FMPS.deserializeReal_serializeReal hx.holds none none none
  exact ⟨r, h1⟩

/-- What the loop of an integration does. -/
theorem loop_ok {L d : ℕ} {step : FMPS ℂ → ℝ → Py (FMPS ℂ)} (hstep : ∀ dt, Keeps L d fun x => step x dt) {T : List ℝ} (hT : 2 ≤ T.length) :
    ∀ (ts : List ℝ) (tr : Traj) (mps : FMPS ℂ), Ok L d mps → ∃ mps' vis vs,
      loop step T ts tr mps = .ok ({ tr with Ds := tr.Ds ++ vis.map FMPS.D, history := tr.history ++ vs }, mps', vis) ∧
      List.Forall₂ Rec vis vs ∧ vis.length = ts.length ∧ ∀ x ∈ vis, Ok L d x ∧ SameShape x mps
  | [], tr, mps, _ => ⟨mps, [], [], by simp [loop], .nil, rfl, by simp⟩
  | t :: ts, tr, mps, h => by
    obtain ⟨mps1, e1, o1, s1⟩ := hstep (T[1] - T[0]) mps h
    obtain ⟨v, hv⟩ := serializeReal_ok h
    obtain ⟨mps', vis, vs, l1, l2, l3, l4⟩ := loop_ok hstep hT ts { tr with history := tr.history ++ [v], Ds := tr.Ds ++ [mps.D] } mps1 o1
    refine ⟨mps', mps :: vis, v :: vs, ?_, .cons hv l2, by simp [l3], ?_⟩
    · rw [loop, pyGet_ok (l := T) (i := 1) (by omega), ok_bind, pyGet_ok (l := T) (i := 0) (by omega), ok_bind, record, hv, ok_bind, ok_bind]
      simp only [] at e1
      rw [e1, ok_bind, l1, ok_bind]
      simp
    · intro x hx
      rcases List.mem_cons.1 hx with rfl | hx
      · exact ⟨h, rfl⟩
      · exact ⟨(l4 x hx).1, (l4 x hx).2.trans s1⟩

/-! ### without `clear` -/

/-- The bookkeeping is aligned with the states `log`: `Ds` has one entry more than the history, entry `k` describes
state `k` and the last entry describes the current state. -/
structure Aligned (L d : ℕ) (tr : Traj) (log : List (FMPS ℂ)) : Prop where
  mps : Ok L d tr.mps
  recd : List.Forall₂ Rec log tr.history
  ok : ∀ x ∈ log, Ok L d x
  ds : ∃ Es e, tr.Ds = Es ++ [e] ∧ List.Forall₂ (fun E (x : FMPS ℂ) => x.Standard E) Es log ∧ tr.mps.Standard e

theorem forall₂_append {α β : Type} {R : α → β → Prop} {a c : List α} {b d : List β} (h1 : List.Forall₂ R a b) (h2 : List.Forall₂ R c d) :
    List.Forall₂ R (a ++ c) (b ++ d) := List.rel_append h1 h2

theorem forall₂_last {α β : Type} {R : α → β → Prop} {a : List α} {b : List β} (h : List.Forall₂ R a b) (hne : a ≠ []) :
    ∃ x ∈ a, ∃ y, FMPS.pyLast b = .ok y ∧ R x y ∧ x = a.getLast hne := by
  induction h with
  | nil => exact absurd rfl hne
  | @cons p q l m h1 h2 ih =>
    cases h2 with
    | nil => exact ⟨p, by simp, q, rfl, h1, by simp⟩
    | @cons p' q' l' m' h3 h4 =>
      obtain ⟨x, hx, y, e1, e2, e3⟩ := ih (by simp)
      refine ⟨x, by simp [hx], y, ?_, e2, by rw [e3]; simp⟩
      rw [← e1]
      have key : ∀ (l : List β), l ≠ [] → FMPS.pyLast (q :: l) = FMPS.pyLast l := by
        intro l hl
        have : 0 < l.length := List.length_pos_iff.2 hl
        unfold FMPS.pyLast pyGetI pyGet
        have e1 : ¬ (0 : ℤ) ≤ -1 := by omega
        have e2 : (0 : ℤ) ≤ -1 + ((q :: l).length : ℕ) := by simp
        have e3 : (0 : ℤ) ≤ -1 + (l.length : ℕ) := by omega
        have e4 : (-1 + ((q :: l).length : ℤ)).toNat = (-1 + (l.length : ℤ)).toNat + 1 := by simp; omega
        simp only [e1, e2, e3, if_true, if_false, e4, List.getElem?_cons_succ]
      exact key _ (by simp)

theorem integrate_ok {L d : ℕ} (hL : 2 ≤ L) {step : FMPS ℂ → ℝ → Py (FMPS ℂ)} (hstep : ∀ dt, Keeps L d fun x => step x dt)
    {canon : FMPS ℂ → Py (FMPS ℂ)} (hcan : Keeps L d canon) {T : List ℝ} (hT : 2 ≤ T.length) {tr : Traj} (hm : Ok L d tr.mps) :
    ∃ y vis vs, integrate step canon T tr =
        .ok ({ tr with mps := y, Ds := tr.Ds ++ vis.map FMPS.D, history := tr.history ++ vs }, vis) ∧
      List.Forall₂ Rec vis vs ∧ vis.length = T.length ∧ (∀ x ∈ vis, Ok L d x ∧ SameShape x tr.mps) ∧ Ok L d y ∧ SameShape y tr.mps ∧
      ∃ hne : vis ≠ [], List.Forall₂ (· ≈ ·) y.data (vis.getLast hne).data := by
  obtain ⟨m1, c1, c2, c3⟩ := hcan _ hm
  obtain ⟨m2, vis, vs, l1, l2, l3, l4⟩ := loop_ok hstep hT T tr m1 c2
  have hne : vis ≠ [] := by
    rintro rfl
    simp at l3
    omega
  obtain ⟨x, hx, v, e1, e2, e3⟩ := forall₂_last l2 hne
  have hlast : FMPS.pyLast (tr.history ++ vs) = .ok v := by
    have hv : vs ≠ [] := by
      rintro rfl
      cases l2
      exact hne rfl
    have hpos : 0 < vs.length := List.length_pos_iff.2 hv
    rw [← e1]
    unfold FMPS.pyLast pyGetI pyGet
    have h1 : ¬ (0 : ℤ) ≤ -1 := by omega
    have h2 : (0 : ℤ) ≤ -1 + ((tr.history ++ vs).length : ℕ) := by rw [List.length_append]; omega
    have h3 : (0 : ℤ) ≤ -1 + (vs.length : ℕ) := by omega
    simp only [h1, h2, h3, if_true, if_false]
    have h4 : (-1 + ((tr.history ++ vs).length : ℤ)).toNat = tr.history.length + (-1 + (vs.length : ℤ)).toNat := by
      rw [List.length_append]; push_cast; omega
    rw [h4, List.getElem?_append_right (by omega)]
    simp
  obtain ⟨o1, s1⟩ := l4 x hx
  obtain ⟨y, r1, r2, r3⟩ := Rec.read hL e2 o1 (standard_same o1 c2 s1 c2.std)
  have hys : SameShape y x := shapes_eqv r2
  refine ⟨y, vis, vs, ?_, l2, l3, fun z hz => ⟨(l4 z hz).1, (l4 z hz).2.trans c3⟩, r3, (hys.trans s1).trans c3, hne, e3 ▸ r2⟩
  rw [integrate, c1, ok_bind, l1, ok_bind]
  simp only [hlast, ok_bind, c2.L, c2.d, r1]

/-- The operations are used as intended: at least two time points, `expand` to a larger, `contract` to a smaller bond
dimension, no `clear`. -/
def Legal (step : FMPS ℂ → ℝ → Py (FMPS ℂ)) (canon : FMPS ℂ → Py (FMPS ℂ)) (resize : Bool → ℕ → FMPS ℂ → Py (FMPS ℂ)) :
    List Ev → Traj × List (FMPS ℂ) → Prop
  | [], _ => True
  | .integrate T :: evs, s => 2 ≤ T.length ∧ ∀ r, integrate step canon T s.1 = .ok r → Legal step canon resize evs (r.1, s.2 ++ r.2)
  | .resize w D :: evs, s => 1 ≤ D ∧ (if w then s.1.mps.D ≤ D else D ≤ s.1.mps.D) ∧
      ∀ tr, resizeTo (resize w) D s.1 = .ok tr → Legal step canon resize evs (tr, s.2)
  | .clear :: _, _ => False

/-- `expand` and `left_canonicalise(D)` produce the standard structure for `D`. -/
def Resizes (L d : ℕ) (resize : Bool → ℕ → FMPS ℂ → Py (FMPS ℂ)) : Prop :=
  ∀ w D x, Ok L d x → 1 ≤ D → (if w then x.D ≤ D else D ≤ x.D) → ∃ y, resize w D x = .ok y ∧ Ok L d y ∧ y.Standard D

theorem run_aligned {L d : ℕ} (hL : 2 ≤ L) {step : FMPS ℂ → ℝ → Py (FMPS ℂ)} (hstep : ∀ dt, Keeps L d fun x => step x dt)
    {canon : FMPS ℂ → Py (FMPS ℂ)} (hcan : Keeps L d canon) {resize : Bool → ℕ → FMPS ℂ → Py (FMPS ℂ)} (hres : Resizes L d resize) :
    ∀ (evs : List Ev) (s : Traj × List (FMPS ℂ)), Aligned L d s.1 s.2 → Legal step canon resize evs s →
      ∃ s', runEvs step canon resize evs s = .ok s' ∧ Aligned L d s'.1 s'.2
  | [], s, h, _ => ⟨s, rfl, h⟩
  | .integrate T :: evs, s, h, hl => by
    obtain ⟨y, vis, vs, e1, e2, e3, e4, e5, e6, -⟩ := integrate_ok hL hstep hcan hl.1 h.mps
    obtain ⟨Es, e, d1, d2, d3⟩ := h.ds
    obtain ⟨s', r1, r2⟩ := run_aligned hL hstep hcan hres evs _ ⟨e5, forall₂_append h.recd e2, by
      intro x hx
      rcases List.mem_append.1 hx with hx | hx
      · exact h.ok x hx
      · exact (e4 x hx).1, by
      have hvis : ∀ (vis : List (FMPS ℂ)), (∀ x ∈ vis, Ok L d x ∧ SameShape x s.1.mps) → ∃ Es' e', [e] ++ vis.map FMPS.D = Es' ++ [e'] ∧
          List.Forall₂ (fun E (x : FMPS ℂ) => x.Standard E) Es' vis ∧ y.Standard e' := by
        intro vis
        induction vis using List.reverseRecOn with
        | nil => exact fun _ => ⟨[], e, rfl, .nil, standard_same e5 h.mps e6 d3⟩
        | append_singleton vis x ih =>
          intro hv
          obtain ⟨Es', e', f1, f2, f3⟩ := ih (fun z hz => hv z (by simp [hz]))
          obtain ⟨o, sx⟩ := hv x (by simp)
          refine ⟨Es' ++ [e'], x.D, by rw [List.map_append, ← List.append_assoc, f1]; rfl, ?_, standard_same e5 o (e6.trans sx.symm) o.std⟩
          exact forall₂_append f2 (.cons (standard_same o e5 (sx.trans e6.symm) f3) .nil)
      obtain ⟨Es', e', f1, f2, f3⟩ := hvis vis e4
      exact ⟨Es ++ Es', e', by rw [d1, List.append_assoc, f1, List.append_assoc], forall₂_append d2 f2, f3⟩⟩ (hl.2 _ e1)
    exact ⟨s', by rw [runEvs, e1, ok_bind]; exact r1, r2⟩
  | .resize w D :: evs, s, h, hl => by
    obtain ⟨y, e1, e2, e3⟩ := hres w D _ h.mps hl.1 hl.2.1
    obtain ⟨Es, e, d1, d2, d3⟩ := h.ds
    have e4 : resizeTo (resize w) D s.1 = .ok { s.1 with mps := y, Ds := Es ++ [D] } := by
      rw [resizeTo, e1, ok_bind, setLast, if_neg (by rw [d1]; simp), ok_bind, d1]
      simp
    obtain ⟨s', r1, r2⟩ := run_aligned hL hstep hcan hres evs ({ s.1 with mps := y, Ds := Es ++ [D] }, s.2)
      ⟨e2, h.recd, h.ok, Es, D, rfl, d2, e3⟩ (hl.2.2 _ e4)
    exact ⟨s', by rw [runEvs, e4, ok_bind]; exact r1, r2⟩
  | .clear :: _, _, _, hl => hl.elim

theorem mpsList_aligned {L d : ℕ} (hL : 2 ≤ L) {tr : Traj} {log : List (FMPS ℂ)} (hne : log ≠ []) (hm : Ok L d tr.mps)
    (hr : List.Forall₂ Rec log tr.history) (hok : ∀ x ∈ log, Ok L d x) {Es E' : List ℕ} (hD : tr.Ds = Es ++ E')
    (hs : List.Forall₂ (fun E (x : FMPS ℂ) => x.Standard E) Es log) :
    ∃ ys, mpsList tr = .ok ys ∧ List.Forall₂ (fun y x => List.Forall₂ (· ≈ ·) y.data x.data) ys log := by
  have hh : tr.history ≠ [] := by
    intro e
    rw [e] at hr
    cases hr
    exact hne rfl
  have hz : tr.Ds.zip tr.history = Es.zip tr.history := by
    have hlen : Es.length = tr.history.length := hs.length_eq.trans hr.length_eq
    rw [hD]
    conv_lhs => rw [← List.append_nil tr.history]
    rw [List.zip_append hlen]
    simp
  unfold mpsList
  rw [hm.L, hm.d, hz]
  have hh' : (!tr.history.isEmpty) = true := by simpa using hh
  rw [hh', guardPy_true, ok_bind]
  clear hz hh' hD hh hne hm
  generalize tr.history = hist at hr ⊢
  induction hs generalizing hist with
  | nil => exact ⟨[], by simp, .nil⟩
  | @cons E x Es log h1 h2 ih =>
    cases hr with
    | @cons _ v _ hist' g1 g2 =>
      obtain ⟨y, r1, r2, -⟩ := Rec.read hL g1 (hok x (by simp)) h1
      obtain ⟨ys, q1, q2⟩ := ih (fun z hz => hok z (by simp [hz])) hist' g2
      refine ⟨y :: ys, ?_, .cons r2 q2⟩
      rw [List.zip_cons_cons, List.mapM_cons, r1, ok_bind, q1]
      rfl

/-- **C35**: after any legal sequence of integrations, expansions and contractions, `mps_list()` returns the states that
were integrated, in order. -/
theorem mpsList_run {L d : ℕ} (hL : 2 ≤ L) {step : FMPS ℂ → ℝ → Py (FMPS ℂ)} (hstep : ∀ dt, Keeps L d fun x => step x dt)
    {canon : FMPS ℂ → Py (FMPS ℂ)} (hcan : Keeps L d canon) {resize : Bool → ℕ → FMPS ℂ → Py (FMPS ℂ)} (hres : Resizes L d resize)
    {mps0 : FMPS ℂ} (h0 : Ok L d mps0) (evs : List Ev) (hl : Legal step canon resize evs (Traj.new mps0, [])) :
    ∃ tr log, runEvs step canon resize evs (Traj.new mps0, []) = .ok (tr, log) ∧
      (log ≠ [] → ∃ ys, mpsList tr = .ok ys ∧ List.Forall₂ (fun y x => List.Forall₂ (· ≈ ·) y.data x.data) ys log) := by
  obtain ⟨s', r1, r2⟩ := run_aligned hL hstep hcan hres evs (Traj.new mps0, [])
    ⟨h0, .nil, by simp, [], mps0.D, rfl, .nil, h0.std⟩ hl
  obtain ⟨Es, e, d1, d2, d3⟩ := r2.ds
  exact ⟨s'.1, s'.2, r1, fun hne => mpsList_aligned hL hne r2.mps r2.recd r2.ok d1 d2⟩

/-! ### with `clear`, without a change of the bond dimension -/

/-- **C35**: with `clear` the history is still returned correctly as long as the bond dimension never changes
(`clear` keeps `Ds`, but then all its entries describe the same structure). -/
theorem mpsList_run_clear {L d : ℕ} (hL : 2 ≤ L) {step : FMPS ℂ → ℝ → Py (FMPS ℂ)} (hstep : ∀ dt, Keeps L d fun x => step x dt)
    {canon : FMPS ℂ → Py (FMPS ℂ)} (hcan : Keeps L d canon) (resize : Bool → ℕ → FMPS ℂ → Py (FMPS ℂ))
    {mps0 : FMPS ℂ} (h0 : Ok L d mps0) (evs : List Ev)
    (hl : ∀ ev ∈ evs, ev = .clear ∨ ∃ T, ev = .integrate T ∧ 2 ≤ T.length) :
    ∃ tr log, runEvs step canon resize evs (Traj.new mps0, []) = .ok (tr, log) ∧
      (log ≠ [] → ∃ ys, mpsList tr = .ok ys ∧ List.Forall₂ (fun y x => List.Forall₂ (· ≈ ·) y.data x.data) ys log) := by
  have main : ∀ (evs : List Ev) (s : Traj × List (FMPS ℂ)), (∀ ev ∈ evs, ev = .clear ∨ ∃ T, ev = .integrate T ∧ 2 ≤ T.length) →
      s.1.mps0 = mps0 → Ok L d s.1.mps → SameShape s.1.mps mps0 → List.Forall₂ Rec s.2 s.1.history →
      (∀ x ∈ s.2, Ok L d x ∧ SameShape x mps0) → (∀ D ∈ s.1.Ds, mps0.Standard D) → s.2.length < s.1.Ds.length →
      ∃ s', runEvs step canon resize evs s = .ok s' ∧ Ok L d s'.1.mps ∧ List.Forall₂ Rec s'.2 s'.1.history ∧
      (∀ x ∈ s'.2, Ok L d x ∧ SameShape x mps0) ∧ (∀ D ∈ s'.1.Ds, mps0.Standard D) ∧ s'.2.length < s'.1.Ds.length := by
    intro evs
    induction evs with
    | nil => intro s _ _ a _ b c d e; exact ⟨s, rfl, a, b, c, d, e⟩
    | cons ev evs ih =>
      intro s hev h1 h2 h3 h4 h5 h6 h7
      rcases hev ev (by simp) with rfl | ⟨T, rfl, hT⟩
      · rw [runEvs]
        exact ih (clear s.1, []) (fun e he => hev e (by simp [he])) h1 (by show Ok L d s.1.mps0; rw [h1]; exact h0)
          (by show SameShape s.1.mps0 mps0; rw [h1]; rfl) .nil (by simp) h6 (by simp only [List.length_nil]; exact lt_of_le_of_lt (Nat.zero_le _) h7)
      · obtain ⟨y, vis, vs, e1, e2, e3, e4, e5, e6, -⟩ := integrate_ok hL hstep hcan hT h2
        rw [runEvs, e1, ok_bind]
        refine ih _ (fun e he => hev e (by simp [he])) h1 e5 (e6.trans h3) (forall₂_append h4 e2) ?_ ?_ ?_
        · intro x hx
          rcases List.mem_append.1 hx with hx | hx
          · exact h5 x hx
          · exact ⟨(e4 x hx).1, (e4 x hx).2.trans h3⟩
        · intro D hD
          rcases List.mem_append.1 hD with hD | hD
          · exact h6 D hD
          · obtain ⟨x, hx, rfl⟩ := List.mem_map.1 hD
            exact standard_same h0 (e4 x hx).1 ((e4 x hx).2.trans h3).symm (e4 x hx).1.std
        · simp only [List.length_append, List.length_map]
          omega
  obtain ⟨s', r1, r2, r3, r4, r5, r6⟩ := main evs (Traj.new mps0, []) hl rfl h0 rfl .nil (by simp)
    (by intro D hD; simp only [Traj.new, List.mem_singleton] at hD; rw [hD]; exact h0.std) (by simp [Traj.new])
  refine ⟨s'.1, s'.2, r1, fun hne => ?_⟩
  refine mpsList_aligned hL hne r2 r3 (fun x hx => (r4 x hx).1) (Es := s'.1.Ds.take s'.2.length) (E' := s'.1.Ds.drop s'.2.length)
    (List.take_append_drop _ _).symm ?_
  rw [List.forall₂_iff_get]
  refine ⟨by simp; omega, fun i hi hi' => ?_⟩
  simp only [List.get_eq_getElem, List.getElem_take]
  have hx := r4 _ (List.getElem_mem hi')
  exact standard_same hx.1 h0 hx.2 (r5 _ (List.getElem_mem _))

/-! ### examples and the violation after `clear` -/

/-- A chain in the standard structure. -/
def flatChain (L d D : ℕ) : FMPS ℂ :=
  ⟨(List.range L).map fun i => ⟨[d, bondAt L d D i, bondAt L d D (i + 1)], fun _ => 1⟩, L, d, D, false, false, none, none⟩

theorem chain_range (d : ℕ) : ∀ (n : ℕ) (b : ℕ → ℕ),
    MpsChain (List.replicate n d) ((List.range n).map fun i => (⟨[d, b i, b (i + 1)], fun _ => 1⟩ : ND ℂ)) (b 0) (b n)
  | 0, b => rfl
  | n + 1, b => by
    rw [List.range_succ_eq_map, List.map_cons, List.replicate_succ, List.map_map]
    exact ⟨b 1, rfl, chain_range d n fun i => b (i + 1)⟩

theorem flatChain_ok {L d D : ℕ} (hL : L ≠ 0) (hD : 1 ≤ D) : Ok L d (flatChain L d D) := by
  have h := chain_range d L (bondAt L d D)
  rw [(FMPS.bondAt_ends hD).1, (FMPS.bondAt_ends hD).2] at h
  refine ⟨⟨h, by simpa using hL, by simp [flatChain], ?_⟩, ?_⟩
  · obtain ⟨n, rfl⟩ := Nat.exists_eq_succ_of_ne_zero hL
    rfl
  · unfold FMPS.Standard flatChain
    simp

example (ts : List ℝ) (hts : 2 ≤ ts.length) :=
  mpsList_run (L := 4) (d := 2) (by decide) (step := fun x _ => .ok x) (fun _ x hx => ⟨x, rfl, hx, rfl⟩) (canon := fun x => .ok x)
    (fun x hx => ⟨x, rfl, hx, rfl⟩) (resize := fun _ D _ => .ok (flatChain 4 2 D))
    (fun _ _ _ _ hD _ => ⟨_, rfl, flatChain_ok (by decide) hD, (flatChain_ok (by decide) hD).std⟩)
    (flatChain_ok (by decide) (le_refl 1)) [.resize true 3, .integrate ts]
    ⟨by decide, by decide, fun _ _ => ⟨hts, fun _ _ => trivial⟩⟩

theorem serializeReal_length {L d D : ℕ} {v : List ℝ} (h : (flatChain L d D).serializeReal = .ok v) :
    v.length = 2 * ((flatChain L d D).data.map fun A => A.shape.prod).sum := by
  obtain ⟨w, h1, h2⟩ := bind_eq_ok h
  cases h2
  unfold FMPS.serialize at h1
  split at h1
  · cases h1
  · cases h1
    have : ∀ As : List (ND ℂ), ((As.map ND.flat).flatten).length = (As.map fun A => A.shape.prod).sum := by
      intro As
      induction As with
      | nil => rfl
      | cons A As ih => simp [FMPS.length_flat, ih]
    simp only [List.length_append, List.length_map, this]
    omega

theorem loop_id {T : List ℝ} (hT : 2 ≤ T.length) {mps : FMPS ℂ} {v : List ℝ} (hv : Rec mps v) : ∀ (ts : List ℝ) (tr : Traj),
    loop (fun x _ => .ok x) T ts tr mps = .ok ({ tr with
      Ds := tr.Ds ++ List.replicate ts.length mps.D, history := tr.history ++ List.replicate ts.length v }, mps, List.replicate ts.length mps)
  | [], tr => by simp [loop]
  | t :: ts, tr => by
    rw [loop, pyGet_ok (l := T) (i := 1) (by omega), ok_bind, pyGet_ok (l := T) (i := 0) (by omega), ok_bind, record, hv, ok_bind, ok_bind, ok_bind,
      loop_id hT hv ts, ok_bind]
    simp [List.replicate_succ]

theorem pyLast_append {α : Type} (l : List α) (a : α) : FMPS.pyLast (l ++ [a]) = .ok a := by
  unfold FMPS.pyLast pyGetI pyGet
  have h1 : ¬ (0 : ℤ) ≤ -1 := by omega
  have h2 : (0 : ℤ) ≤ -1 + ((l ++ [a]).length : ℕ) := by simp
  have h3 : (-1 + ((l ++ [a]).length : ℤ)).toNat = l.length := by simp
  simp only [h1, h2, if_true, if_false, h3]
  simp

theorem integrate_id {T : List ℝ} (hT : 2 ≤ T.length) {D : ℕ} (hD : 1 ≤ D) {v : List ℝ} (hv : Rec (flatChain 2 2 D) v) (tr : Traj)
    (hm : tr.mps = flatChain 2 2 D) : ∃ y, integrate (fun x _ => .ok x) (fun x => .ok x) T tr = .ok ({ tr with
      mps := y, Ds := tr.Ds ++ List.replicate T.length D, history := tr.history ++ List.replicate T.length v },
      List.replicate T.length (flatChain 2 2 D)) ∧ Ok 2 2 y := by
  have ho : Ok 2 2 (flatChain 2 2 D) := flatChain_ok (by decide) hD
  obtain ⟨y, r1, r2, r3⟩ := Rec.read (le_refl 2) hv ho ho.std
  refine ⟨y, ?_, r3⟩
  have hlast : FMPS.pyLast (tr.history ++ List.replicate T.length v) = .ok v := by
    obtain ⟨n, hn⟩ : ∃ n, T.length = n + 1 := ⟨T.length - 1, by omega⟩
    rw [hn, List.replicate_succ', ← List.append_assoc]
    exact pyLast_append _ _
  change FMPS.deserializeReal v (some 2) (some 2) (some D) none = _ at r1
  rw [integrate, ok_bind, hm, loop_id hT hv, ok_bind]
  simp only [hlast, ok_bind]
  rw [show (flatChain 2 2 D).L = 2 from rfl, show (flatChain 2 2 D).d = 2 from rfl, show (flatChain 2 2 D).D = D from rfl, r1, ok_bind]

/-- **C35** (violated): `clear` does not reset `Ds`.  A run of two sites with bond dimension 1, an expansion to 2, a
second run, `clear`, a third run: `mps_list()` raises. -/
theorem mpsList_clear_fails : ∃ tr log,
    runEvs (fun x _ => .ok x) (fun x => .ok x) (fun _ D _ => .ok (flatChain 2 2 D))
      [.integrate [0, 1], .resize true 2, .integrate [0, 1], .clear, .integrate [0, 1, 2, 3]] (Traj.new (flatChain 2 2 1), []) = .ok (tr, log) ∧
    mpsList tr = .error .valueError := by
  obtain ⟨v1, hv1⟩ := serializeReal_ok (flatChain_ok (L := 2) (d := 2) (D := 1) (by decide) (le_refl 1))
  obtain ⟨v2, hv2⟩ := serializeReal_ok (flatChain_ok (L := 2) (d := 2) (D := 2) (by decide) (by decide))
  obtain ⟨y1, i1, -⟩ := integrate_id (T := [0, 1]) (le_refl 2) (le_refl 1) hv1 (Traj.new (flatChain 2 2 1)) rfl
  obtain ⟨y2, i2, -⟩ := integrate_id (T := [0, 1]) (le_refl 2) (D := 2) (by decide) hv2
    ⟨flatChain 2 2 1, flatChain 2 2 2, [1, 1, 2], [v1, v1]⟩ rfl
  obtain ⟨y3, i3, o3⟩ := integrate_id (T := [0, 1, 2, 3]) (by decide) (le_refl 1) hv1 ⟨flatChain 2 2 1, flatChain 2 2 1, [1, 1, 2, 2, 2], []⟩ rfl
  refine ⟨⟨flatChain 2 2 1, y3, [1, 1, 2, 2, 2, 1, 1, 1, 1], [v1, v1, v1, v1]⟩, List.replicate 4 (flatChain 2 2 1), ?_, ?_⟩
  · rw [runEvs, i1, ok_bind, runEvs,
      show resizeTo _ 2 _ = .ok ⟨flatChain 2 2 1, flatChain 2 2 2, [1, 1, 2], [v1, v1]⟩ by simp [resizeTo, setLast, Traj.new, List.replicate_succ]; rfl, ok_bind, runEvs]
    simp only []
    rw [i2, ok_bind, runEvs, runEvs]
    simp only []
    rw [show clear _ = ⟨flatChain 2 2 1, flatChain 2 2 1, [1, 1, 2, 2, 2], []⟩ from rfl, i3, ok_bind, runEvs]
    rfl
  · have hl : v1.length = 8 := by
      rw [serializeReal_length hv1]
      simp [flatChain, bondAt, List.range_succ]
    have ho := flatChain_ok (L := 2) (d := 2) (D := 1) (by decide) (le_refl 1)
    obtain ⟨y, r1, -⟩ := Rec.read (le_refl 2) hv1 ho ho.std
    change FMPS.deserializeReal v1 (some 2) (some 2) (some 1) none = _ at r1
    have r2 : FMPS.deserializeReal v1 (some 2) (some 2) (some 2) none = .error .valueError := by
      have hc : FMPS.createStructure 2 2 (some 2) = .ok [(1, 2), (2, 1)] := by decide
      unfold FMPS.deserializeReal FMPS.joinReal
      rw [hl, show (8 % 2 == 0) = true from rfl, guardPy_true, ok_bind, ok_bind]
      simp only [FMPS.deserialize, hc, ok_bind, List.map_cons, List.map_nil, FMPS.cutUp]
      simp [hl, guardPy]
    simp [mpsList, guardPy, o3.L, o3.d, r1, r2]

end Xmps.Tdvp
