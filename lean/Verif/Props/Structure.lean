import Mathlib.Data.List.Range
import Verif.Model.Structure
import Verif.Lemmas.FmpsBasic
import Verif.Lemmas.FmpsExamples

/-! # Properties C19 (`create_structure`), C20 (`serialize`), C21 (`store`/`load`), C22 (padding) -/

namespace Xmps

open Finset Xmps.Spec

variable {K : Type}

/-! ### C19 -/

/-- The bond `i` of the standard chain: `min(d**min(i, L-i), D)`. -/
def Spec.bondAt (L d D i : ℕ) : ℕ := min (d ^ min i (L - i)) D

namespace FMPS

/-- **C19**: the structure lists the bonds `min(d**min(i, L-i), D)`, for `L ≥ 2`. -/
theorem createStructure_spec {L d D : ℕ} (hL : 2 ≤ L) :
    createStructure L d (some D) = .ok ((List.range L).map fun i => (bondAt L d D i, bondAt L d D (i + 1))) := by
  rcases Nat.even_or_odd' L with ⟨m, rfl | rfl⟩
  · have h2 : 2 * m / 2 = m := by omega
    simp only [createStructure, Option.getD_some, h2, Nat.mul_mod_right, if_true]
    congr 1
    apply List.ext_getElem
    · simp; omega
    · intro i h1 h3
      simp only [List.length_map, List.length_range] at h3
      rw [List.getElem_append]
      split_ifs with h
      · simp only [List.length_map, List.length_range] at h
        simp only [List.getElem_map, List.getElem_range, bondAt]
        rw [min_eq_left (by omega : i ≤ 2 * m - i), min_eq_left (by omega : i + 1 ≤ 2 * m - (i + 1))]
      · simp only [List.length_map, List.length_range] at h
        simp only [List.getElem_map, List.getElem_range, List.getElem_reverse, List.length_map, List.length_range, bondAt]
        rw [min_eq_right (by omega : 2 * m - i ≤ i), min_eq_right (by omega : 2 * m - (i + 1) ≤ i + 1)]
        have e1 : m - 1 - (i - m) + 1 = 2 * m - i := by omega
        have e2 : m - 1 - (i - m) = 2 * m - (i + 1) := by omega
        rw [e1, e2]
  · have h2 : (2 * m + 1) / 2 = m := by omega
    have h3 : (2 * m + 1) % 2 = 1 := by omega
    obtain ⟨k, rfl⟩ : ∃ k, m = k + 1 := ⟨m - 1, by omega⟩
    simp only [createStructure, Option.getD_some, h2, h3, Nat.one_ne_zero, if_false]
    set left := (List.range (k + 1)).map fun n => (min (d ^ n) D, min (d ^ (n + 1)) D) with hleft
    have hl : left.length = k + 1 := by simp [hleft]
    have hlast : pyLast left = .ok (min (d ^ k) D, min (d ^ (k + 1)) D) := by
      rw [pyLast, pyGetI, if_neg (by omega), if_pos (by rw [hl]; omega)]
      have : ((-1 : ℤ) + (left.length : ℤ)).toNat = k := by rw [hl]; omega
      rw [this, pyGet_ok (by omega)]
      simp [hleft]
    have hfirst : pyGet (left.reverse.map fun t => (t.2, t.1)) 0 = .ok (min (d ^ (k + 1)) D, min (d ^ k) D) := by
      rw [pyGet_ok (by simp [hl])]
      simp [hleft]
    rw [hlast, ok_bind, hfirst, ok_bind]
    congr 1
    apply List.ext_getElem
    · simp [hl]; omega
    · intro i h1 h4
      simp only [List.length_map, List.length_range] at h4
      rw [List.getElem_append]
      split_ifs with h
      · rw [List.getElem_append]
        split_ifs with h'
        · rw [hl] at h'
          simp only [hleft, List.getElem_map, List.getElem_range, bondAt]
          rw [min_eq_left (by omega : i ≤ 2 * (k + 1) + 1 - i), min_eq_left (by omega : i + 1 ≤ 2 * (k + 1) + 1 - (i + 1))]
        · simp only [List.length_append, hl, List.length_singleton] at h h'
          have hi : i = k + 1 := by omega
          subst hi
          simp only [List.getElem_singleton, List.getElem_map, List.getElem_range, bondAt]
          rw [min_eq_left (by omega : k + 1 ≤ 2 * (k + 1) + 1 - (k + 1)), min_eq_right (by omega : 2 * (k + 1) + 1 - (k + 1 + 1) ≤ k + 1 + 1)]
          have : 2 * (k + 1) + 1 - (k + 1 + 1) = k + 1 := by omega
          rw [this]
      · simp only [List.length_append, hl, List.length_singleton] at h
        simp only [List.getElem_map, List.getElem_range, List.getElem_reverse, List.length_map, List.length_append, hl,
          List.length_singleton, hleft, bondAt, List.length_range]
        rw [min_eq_right (by omega : 2 * (k + 1) + 1 - i ≤ i), min_eq_right (by omega : 2 * (k + 1) + 1 - (i + 1) ≤ i + 1)]
        have e1 : k + 1 - 1 - (i - (k + 1 + 1)) + 1 = 2 * (k + 1) + 1 - i := by omega
        have e2 : k + 1 - 1 - (i - (k + 1 + 1)) = 2 * (k + 1) + 1 - (i + 1) := by omega
        rw [e1, e2]

/-- **C19**: `D=None` leaves the bonds as large as the two halves allow. -/
theorem createStructure_none (L d : ℕ) : createStructure L d none = createStructure L d (some (d ^ L)) := rfl

/-- **C19**: outer bonds are 1. -/
theorem bondAt_ends {L d D : ℕ} (hD : 1 ≤ D) : bondAt L d D 0 = 1 ∧ bondAt L d D L = 1 := by
  simp [bondAt, hD]

/-- **C19**: the structure is symmetric under reversal. -/
theorem createStructure_symm {L d D : ℕ} (hL : 2 ≤ L) : ∃ st, createStructure L d (some D) = .ok st ∧ st.length = L ∧
    (st.reverse.map fun p => (p.2, p.1)) = st ∧ (∀ i (h : i + 1 < st.length), st[i].2 = st[i + 1].1) := by
  refine ⟨_, createStructure_spec hL, by simp, ?_, ?_⟩
  · apply List.ext_getElem
    · simp
    · intro i h1 h2
      simp only [List.length_map, List.length_range] at h2
      simp only [List.getElem_map, List.getElem_range, List.getElem_reverse, List.length_map, List.length_range, bondAt]
      have e1 : min (L - 1 - i + 1) (L - (L - 1 - i + 1)) = min i (L - i) := by omega
      have e2 : min (L - 1 - i) (L - (L - 1 - i)) = min (i + 1) (L - (i + 1)) := by omega
      rw [e1, e2]
  · intro i h
    simp

/-- **C19** (violated at `L = 1`): a chain of one site has no structure, `left[-1]` raises. -/
theorem createStructure_one (d : ℕ) (D : Option ℕ) : createStructure 1 d D = .error .indexError := rfl

example : createStructure 5 2 (some 3) = .ok [(1, 2), (2, 3), (3, 3), (3, 2), (2, 1)] := by decide
example := createStructure_spec (L := 7) (d := 3) (D := 5) (by decide)

/-! ### C20 -/

theorem length_flat (A : ND K) : A.flat.length = A.shape.prod := by simp [ND.flat, ND.size]

theorem ofFlat_flat [Zero K] (A : ND K) : ND.ofFlat A.shape A.flat ≈ A := by
  refine ⟨rfl, fun idx hi => ?_⟩
  have h := ravel_lt hi
  have hl : ravel A.shape idx < A.flat.length := by rw [length_flat]; exact h
  simp only [ND.ofFlat]
  rw [List.getD_eq_getElem _ _ hl]
  simp only [ND.flat, List.getElem_map, List.getElem_range]
  exact congrArg A.val (unravel_ravel hi)

theorem cutUp_flat [Zero K] : ∀ (As : List (ND K)) (rest : List K),
    cutUp ((As.map ND.flat).flatten ++ rest) (As.map ND.shape) = .ok (As.map fun A => ND.ofFlat A.shape A.flat)
  | [], _ => rfl
  | A :: As, rest => by
    have e : ((A :: As).map ND.flat).flatten ++ rest = A.flat ++ ((As.map ND.flat).flatten ++ rest) := by simp
    rw [e, List.map_cons, cutUp, List.take_left' (length_flat A), List.drop_left' (length_flat A), cutUp_flat As rest]
    simp [length_flat]

theorem forall₂_map_eqv [Zero K] (As : List (ND K)) :
    List.Forall₂ (· ≈ ·) (As.map fun A => ND.ofFlat A.shape A.flat) As := by
  induction As with
  | nil => exact .nil
  | cons A As ih => exact .cons (ofFlat_flat A) ih

/-- The shapes of the standard chain. -/
def Standard (x : FMPS K) (D : ℕ) : Prop :=
  x.data.map ND.shape = (List.range x.L).map fun i => [x.d, bondAt x.L x.d D i, bondAt x.L x.d D (i + 1)]

/-- **C20**: `deserialize` with the chain's own structure is the inverse of `serialize`. -/
theorem deserialize_serialize [Zero K] {x : FMPS K} {ds : List ℕ} (h : x.Holds ds) (L d D : Option ℕ) :
    ∃ v y, x.serialize = .ok v ∧ deserialize v L d D (some (x.data.map ND.shape)) = .ok y ∧
      List.Forall₂ (· ≈ ·) y.data x.data ∧ y.Holds ds := by
  have hne : x.data.isEmpty = false := by
    have := h.data_ne
    cases hx : x.data with
    | nil => exact absurd hx this
    | cons _ _ => rfl
  have hc := cutUp_flat x.data []
  rw [List.append_nil] at hc
  have hf := forall₂_map_eqv x.data
  have hf' : List.Forall₂ (· ≈ ·) x.data (x.data.map fun A => ND.ofFlat A.shape A.flat) := by
    exact hf.flip.imp fun _ _ h => ND.Eqv.symm h
  obtain ⟨y, h1, h2, h3, -⟩ := init_holds (chain_congr h.chain hf') h.ne none (Or.inl rfl)
  refine ⟨(x.data.map ND.flat).flatten, y, by simp [serialize, hne], ?_, h2 ▸ hf, h3⟩
  simp only [deserialize, ok_bind, hc, h1]

/-- **C20**: without a structure the round trip holds for chains of the standard structure. -/
theorem deserialize_standard [Zero K] {x : FMPS K} {ds : List ℕ} (h : x.Holds ds) {D : ℕ} (hL : 2 ≤ x.L) (hs : x.Standard D) :
    ∃ v y, x.serialize = .ok v ∧ deserialize v (some x.L) (some x.d) (some D) none = .ok y ∧
      List.Forall₂ (· ≈ ·) y.data x.data ∧ y.Holds ds := by
  obtain ⟨v, y, h1, h2, h3⟩ := deserialize_serialize h none none none
  refine ⟨v, y, h1, ?_, h3⟩
  rw [← h2, hs]
  simp only [deserialize, createStructure_spec hL, ok_bind, List.map_map, Function.comp_def]

/-- **C20**: the real form joins back to the complex vector. -/
theorem joinReal_serializeReal {x : FMPS ℂ} {v : List ℂ} (h : x.serialize = .ok v) :
    ∃ r, x.serializeReal = .ok r ∧ r.length = 2 * v.length ∧ joinReal r = .ok v := by
  refine ⟨v.map Complex.re ++ v.map Complex.im, by simp [serializeReal, h], by simp; omega, ?_⟩
  have hl : (v.map Complex.re ++ v.map Complex.im).length = 2 * v.length := by simp; omega
  have h2 : 2 * v.length / 2 = v.length := by omega
  simp only [joinReal, hl, Nat.mul_mod_right, beq_self_eq_true, guardPy_true, ok_bind, h2]
  rw [List.take_left' (by simp), List.drop_left' (by simp)]
  congr 1
  apply List.ext_getElem
  · simp
  · intro i h1 h2
    simp only [List.getElem_zipWith, List.getElem_map]
    rw [mul_comm]
    exact Complex.re_add_im _

/-- **C20**: the round trip through real vectors, with the chain's own structure. -/
theorem deserializeReal_serializeReal {x : FMPS ℂ} {ds : List ℕ} (h : x.Holds ds) (L d D : Option ℕ) :
    ∃ r y, x.serializeReal = .ok r ∧ deserializeReal r L d D (some (x.data.map ND.shape)) = .ok y ∧
      List.Forall₂ (· ≈ ·) y.data x.data ∧ y.Holds ds := by
  obtain ⟨v, y, h1, h2, h3⟩ := deserialize_serialize h L d D
  obtain ⟨r, r1, r2, r3⟩ := joinReal_serializeReal h1
  exact ⟨r, y, r1, by simp only [deserializeReal, r3, ok_bind, h2], h3⟩

/-- **C20**: the round trip through real vectors, standard structure. -/
theorem deserializeReal_standard {x : FMPS ℂ} {ds : List ℕ} (h : x.Holds ds) {D : ℕ} (hL : 2 ≤ x.L) (hs : x.Standard D) :
    ∃ r y, x.serializeReal = .ok r ∧ deserializeReal r (some x.L) (some x.d) (some D) none = .ok y ∧
      List.Forall₂ (· ≈ ·) y.data x.data ∧ y.Holds ds := by
  obtain ⟨v, y, h1, h2, h3⟩ := deserialize_standard h hL hs
  obtain ⟨r, r1, r2, r3⟩ := joinReal_serializeReal h1
  exact ⟨r, y, r1, by simp only [deserializeReal, r3, ok_bind, h2], h3⟩

/-- A two-site chain with inner bond 3: not of the standard structure. -/
def exWide : FMPS ℂ := ⟨[⟨[2, 1, 3], fun _ => 1⟩, ⟨[2, 3, 1], fun _ => 1⟩], 2, 2, 3, false, false, none, none⟩

theorem exWide_holds : exWide.Holds [2, 2] := ⟨⟨3, rfl, 1, rfl, rfl⟩, by simp, rfl, rfl⟩

/-- **C20** (violated): for a chain that is not of the standard structure `deserialize` without a structure
silently returns a chain with other tensors. -/
theorem deserialize_nonstandard : ∃ v y, exWide.serialize = .ok v ∧
    deserialize v (some exWide.L) (some exWide.d) (some exWide.D) none = .ok y ∧
    y.data.map ND.shape ≠ exWide.data.map ND.shape := by
  have hc : createStructure 2 2 (some 3) = .ok [(1, 2), (2, 1)] := by decide
  have hs : exWide.serialize = .ok (List.replicate 12 1) := by
    simp [serialize, exWide, ND.flat, ND.size, List.range_succ, List.replicate_succ]
  have hcut : cutUp (List.replicate 12 (1 : ℂ)) [[2, 1, 2], [2, 2, 1]] =
      .ok [ND.ofFlat [2, 1, 2] (List.replicate 4 1), ND.ofFlat [2, 2, 1] (List.replicate 4 1)] := by
    simp [cutUp]
  obtain ⟨y, h1, h2, -⟩ := init_ok (data := [ND.ofFlat [2, 1, 2] (List.replicate 4 (1 : ℂ)), ND.ofFlat [2, 2, 1] (List.replicate 4 1)])
    (by simp) (by simp [ND.ofFlat]) none
  refine ⟨_, y, hs, ?_, ?_⟩
  · simp only [deserialize, exWide, hc, ok_bind, List.map_cons, List.map_nil, hcut, h1]
  · rw [h2]; simp [exWide, ND.ofFlat]

example := deserialize_serialize exWide_holds none none none
example := deserialize_standard (exTwo_holds 3) (D := 2) (by decide) rfl
example := deserializeReal_standard (exTwo_holds 3) (D := 2) (by decide) rfl

/-! ### C21 -/

theorem intRe_nat (n : ℕ) : intRe (n : ℂ) = n := by simp [intRe]

/-- **C21**: after `store(f)` with a name that ends in `.npy`, `load(f)` returns the stored chain
(standard structure; `x.D` is the bond dimension of the structure), whatever the file system held before. -/
theorem load_store {x : FMPS ℂ} {ds : List ℕ} (h : x.Holds ds) (hL : 2 ≤ x.L) (hs : x.Standard x.D) (fs : Files)
    {name : List Char} (hn : npy <:+ name) :
    ∃ fs' y, store fs x name false = .ok fs' ∧ load fs' name false = .ok y ∧
      List.Forall₂ (· ≈ ·) y.data x.data ∧ y.Holds ds := by
  obtain ⟨v, y, h1, h2, h3⟩ := deserialize_standard h hL hs
  refine ⟨_, y, by simp only [store, h1, ok_bind]; rfl, ?_, h3⟩
  simp only [load, npLoad, npSave, if_pos hn, if_true, ok_bind]
  simp only [Bool.false_eq_true, if_false, List.cons_append, List.nil_append, List.take_succ_cons, List.take_zero,
    List.drop_succ_cons, List.drop_zero, intRe_nat]
  exact h2

theorem flatten_shapes : ∀ {As : List (ND K)}, (∀ A ∈ As, ∃ d l r, A.shape = [d, l, r]) →
    (As.map ND.shape).flatten.length = 3 * As.length ∧ triples (As.map ND.shape).flatten As.length = As.map ND.shape
  | [], _ => by simp [triples]
  | A :: As, h => by
    obtain ⟨d, l, r, hA⟩ := h A (by simp)
    obtain ⟨h1, h2⟩ := flatten_shapes (As := As) (fun B hB => h B (by simp [hB]))
    refine ⟨by simp only [List.map_cons, List.flatten_cons, hA, List.length_append, h1, List.length_cons, List.length_nil]; omega, ?_⟩
    conv_rhs => rw [List.map_cons, ← h2]
    simp only [triples, List.length_cons, List.range_succ_eq_map, List.map_cons, List.map_map, List.flatten_cons, hA]
    refine congrArg₂ _ ?_ ?_
    · simp
    · refine List.map_congr_left fun i _ => ?_
      simp only [Function.comp, Nat.mul_succ]
      rw [Nat.add_comm, ← List.drop_drop]
      rfl

/-- **C21**: the structured form works for every chain. -/
theorem load_store_structured {x : FMPS ℂ} {ds : List ℕ} (h : x.Holds ds) (fs : Files)
    {name : List Char} (hn : npy <:+ name) :
    ∃ fs' y, store fs x name true = .ok fs' ∧ load fs' name true = .ok y ∧
      List.Forall₂ (· ≈ ·) y.data x.data ∧ y.Holds ds := by
  obtain ⟨v, y, h1, h2, h3⟩ := deserialize_serialize h none none none
  obtain ⟨f1, f2⟩ := flatten_shapes h.chain.shapes
  refine ⟨_, y, by simp only [store, h1, ok_bind]; rfl, ?_, h3⟩
  simp only [load, npLoad, npSave, if_pos hn, if_true, ok_bind]
  simp only [List.map_cons, List.cons_append, pyGet_cons_zero, ok_bind, intRe_nat, List.drop_succ_cons, List.drop_zero]
  set st := (x.data.map ND.shape).flatten
  have hl : (st.map fun (n : ℕ) => (n : ℂ)).length = st.length := by simp
  rw [List.take_left' hl, List.drop_left' hl, List.map_map]
  have e1 : (intRe ∘ fun (n : ℕ) => (n : ℂ)) = id := by funext n; exact intRe_nat n
  have e2 : st.length / 3 = x.data.length := by omega
  rw [e1, List.map_id, e2, f2, h2]

/-- **C21**: `store` with a name that does not end in `.npy` writes to another file, which `load` of the same
name does not open: `load(f)` sees what was there before. -/
theorem load_other_name {x : FMPS ℂ} {fs fs' : Files} {name : List Char} (hn : ¬ npy <:+ name) {b : Bool}
    (h : store fs x name b = .ok fs') (c : Bool) : load fs' name c = load fs name c := by
  have key : ∀ v, npSave fs name v name = fs name := by
    intro v
    have : name ≠ name ++ npy := by
      intro e
      have := congrArg List.length e
      simp [npy] at this
    simp [npSave, hn, this]
  have h1 : fs' name = fs name := by
    unfold store at h
    cases hv : x.serialize with
    | error e => rw [hv] at h; simp at h
    | ok v =>
      rw [hv, ok_bind] at h
      cases b <;> simp at h <;> rw [← h] <;> exact key _
  simp only [load, npLoad, h1]

/-- **C21** (violated): in an empty directory `store("f")` and then `load("f")` raises `FileNotFoundError`. -/
theorem load_store_fails (x : FMPS ℂ) {ds : List ℕ} (h : x.Holds ds) :
    ∃ fs', store (fun _ => none) x ['f'] false = .ok fs' ∧ load fs' ['f'] false = .error .fileNotFound := by
  obtain ⟨v, y, h1, -⟩ := deserialize_serialize h none none none
  have hs : ∃ fs', store (fun _ => none) x ['f'] false = .ok fs' := by simp [store, h1]
  obtain ⟨fs', hs⟩ := hs
  exact ⟨fs', hs, by rw [load_other_name (by decide) hs]; rfl⟩

example := load_store (exTwo_holds 3) (by decide) rfl (fun _ => none) (name := 'a' :: npy) (by decide)
example := load_store_structured exWide_holds (fun _ => none) (name := 'a' :: npy) (by decide)
example := load_store_fails _ exWide_holds

end FMPS

end Xmps
