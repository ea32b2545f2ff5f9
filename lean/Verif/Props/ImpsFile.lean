import Verif.Model.ImpsFile
import Verif.Props.Structure

/-!
# Unit cells of infinite states survive serialisation and files
-/

namespace Xmps

open FMPS

namespace Spec

/-- A unit cell of at least one tensor, all of shape `(d, D, D)`, whose attributes are right. -/
structure GoodCell (x : Cell) : Prop where
  ne : x.data ≠ []
  period : x.period = x.data.length
  shapes : ∀ A ∈ x.data, A.shape = [x.d, x.D, x.D]

end Spec

open Spec

namespace Cell

variable {x : Cell}

/-- what `iMPS(data)` builds from tensors of one shape -/
theorem init_good {data : List (ND ℂ)} {d D : ℕ} (hne : data ≠ []) (h : ∀ A ∈ data, A.shape = [d, D, D]) :
    ∃ x, init data = .ok x ∧ GoodCell x ∧ x.data = data ∧ x.d = d ∧ x.D = D := by
  cases data with
  | nil => exact absurd rfl hne
  | cons A As =>
    have hA := h A (by simp)
    refine ⟨⟨A :: As, As.length + 1, d, D⟩, ?_, ⟨by simp, by simp, h⟩, rfl, rfl, rfl⟩
    simp [init, pyGet, ND.dim, hA]

theorem shapes_eq (h : GoodCell x) : x.data.map ND.shape = createStructure x.d x.D x.period := by
  rw [createStructure, h.period]
  apply List.ext_getElem
  · simp
  · intro i h1 h2
    simp only [List.length_map] at h1
    simp [h.shapes _ (List.getElem_mem h1)]

theorem serialize_ok (h : GoodCell x) : x.serialize = .ok (x.data.map ND.flat).flatten := by
  have : x.data.isEmpty = false := by
    cases hx : x.data with
    | nil => exact absurd hx h.ne
    | cons _ _ => rfl
  simp [serialize, this]

/-- **C74**: the vector has `period * d * D * D` entries, and `deserialize` with the same `d`, `D` and period is the inverse. -/
theorem deserialize_serialize (h : GoodCell x) : ∃ v y, x.serialize = .ok v ∧ v.length = x.period * (x.d * (x.D * x.D)) ∧
    deserialize v x.d x.D x.period = .ok y ∧ List.Forall₂ (· ≈ ·) y.data x.data ∧ GoodCell y ∧ y.period = x.period ∧ y.d = x.d ∧ y.D = x.D := by
  refine ⟨_, ⟨x.data.map fun A => ND.ofFlat A.shape A.flat, x.period, x.d, x.D⟩, serialize_ok h, ?_, ?_, forall₂_map_eqv _, ⟨?_, ?_, ?_⟩, rfl, rfl, rfl⟩
  · rw [List.length_flatten, List.map_map]
    have : x.data.map (List.length ∘ ND.flat) = List.replicate x.data.length (x.d * (x.D * x.D)) := by
      apply List.ext_getElem
      · simp
      · intro i h1 h2
        simp only [List.length_map] at h1
        simp [length_flat, h.shapes _ (List.getElem_mem h1)]
    rw [this, List.sum_replicate, h.period, smul_eq_mul]
  · have := cutUp_flat x.data []
    rw [List.append_nil, shapes_eq h] at this
    unfold deserialize
    rw [this, ok_bind]
  · simpa using h.ne
  · simp [h.period]
  · intro A hA
    obtain ⟨B, hB, rfl⟩ := List.mem_map.1 hA
    exact h.shapes B hB

/-- **C74**: the same through real vectors, which are twice as long. -/
theorem deserializeReal_serializeReal (h : GoodCell x) : ∃ v y, x.serializeReal = .ok v ∧ v.length = 2 * (x.period * (x.d * (x.D * x.D))) ∧
    deserializeReal v x.d x.D x.period = .ok y ∧ List.Forall₂ (· ≈ ·) y.data x.data ∧ GoodCell y ∧ y.period = x.period ∧ y.d = x.d ∧
    y.D = x.D := by
  obtain ⟨v, y, h1, h2, h3, h4⟩ := deserialize_serialize h
  have hs : (⟨x.data, 0, 0, 0, false, false, none, none⟩ : FMPS ℂ).serialize = .ok v := h1
  obtain ⟨r, r1, r2, r3⟩ := joinReal_serializeReal hs
  refine ⟨r, y, ?_, by rw [r2, h2], ?_, h4⟩
  · rw [← r1]
    rfl
  · unfold deserializeReal
    rw [r3, ok_bind, h3]

/-- **C74**: after `store(f)` with a name that ends in `.npy`, `load(f)` returns the stored cell, whatever the file system held before. -/
theorem load_store (h : GoodCell x) (fs : Files) {name : List Char} (hn : npy <:+ name) :
    ∃ fs' y, store fs x name = .ok fs' ∧ load fs' name = .ok y ∧ List.Forall₂ (· ≈ ·) y.data x.data ∧ GoodCell y ∧ y.period = x.period ∧
      y.d = x.d ∧ y.D = x.D := by
  obtain ⟨v, y, h1, h2, h3, h4⟩ := deserialize_serialize h
  refine ⟨npSave fs name ([(x.d : ℂ), (x.D : ℂ), (x.period : ℂ)] ++ v), y, by rw [store, h1, ok_bind], ?_, h4⟩
  unfold load
  simp only [npLoad, npSave, if_pos hn, if_true, ok_bind, List.cons_append, List.nil_append, List.take_succ_cons, List.take_zero,
    List.drop_succ_cons, List.drop_zero, intRe_nat, h3]

/-- `store` touches no other file. -/
theorem store_other {fs fs' : Files} {name other : List Char} (h : store fs x name = .ok fs') (h1 : other ≠ name) (h2 : other ≠ name ++ npy) :
    fs' other = fs other := by
  unfold store at h
  obtain ⟨v, _, h⟩ := bind_eq_ok h
  obtain rfl := Except.ok.inj h
  unfold npSave
  split_ifs <;> simp_all

/-- **C74** (violated): with a name that does not end in `.npy`, `load` does not find what `store` wrote. -/
theorem load_store_fails (h : GoodCell x) : ∃ fs', store (fun _ => none) x ['f'] = .ok fs' ∧ load fs' ['f'] = .error .fileNotFound := by
  refine ⟨_, by rw [store, serialize_ok h, ok_bind], ?_⟩
  unfold load
  have : ¬ npy <:+ ['f'] := by decide
  simp only [npLoad, npSave, if_neg this]
  rfl

/-- **C76** (violated): `x(k)`, documented as the `k`-th tensor counted from one, is `x[k+1]`: for every cell `x(period)`, which ought to be
the last tensor, raises, and `x(1)` is not the first tensor unless two tensors of the cell are equal. -/
theorem call_shifted (h : GoodCell x) : (∀ k, x.call k = x.getItem (k + 1)) ∧ x.call x.period = .error .indexError ∧
    (∀ k : ℕ, k + 1 < x.data.length → x.call k = pyGet x.data (k + 1)) := by
  refine ⟨fun _ => rfl, ?_, fun k hk => ?_⟩
  · unfold call pyGetI
    have h1 : (0 : ℤ) ≤ (x.data.length : ℤ) + 1 := by omega
    rw [h.period, if_pos h1]
    exact pyGet_err (by omega)
  · unfold call pyGetI
    have h1 : (0 : ℤ) ≤ (k : ℤ) + 1 := by omega
    rw [if_pos h1]
    rfl

/-- **C76** (violated): the same for finite chains. -/
theorem _root_.Xmps.FMPS.call_shifted {K : Type} (x : FMPS K) (hne : x.data ≠ []) : (∀ k, x.call k = x.getItem (k + 1)) ∧
    x.call x.data.length = .error .indexError ∧ (∀ k : ℕ, k + 1 < x.data.length → x.call k = pyGet x.data (k + 1)) ∧
    x.call (-1) = .ok (x.data.head hne) := by
  refine ⟨fun _ => rfl, ?_, fun k hk => ?_, ?_⟩
  · unfold FMPS.call pyGetI
    have h1 : (0 : ℤ) ≤ (x.data.length : ℤ) + 1 := by omega
    rw [if_pos h1]
    exact pyGet_err (by omega)
  · unfold FMPS.call pyGetI
    have h1 : (0 : ℤ) ≤ (k : ℤ) + 1 := by omega
    rw [if_pos h1]
    rfl
  · unfold FMPS.call pyGetI
    rw [if_pos (by omega)]
    have : 0 < x.data.length := List.length_pos_of_ne_nil hne
    rw [show ((-1 : ℤ) + 1).toNat = 0 from rfl, pyGet_ok this, List.head_eq_getElem]

/-! ### the hypotheses can be met -/

example := FMPS.call_shifted exWide (by simp [exWide])

/-- two different tensors -/
noncomputable def exCell : Cell := ⟨[⟨[2, 3, 3], fun _ => Complex.I⟩, ⟨[2, 3, 3], fun i => (i.getD 0 0 : ℂ)⟩], 2, 2, 3⟩

theorem exCell_good : GoodCell exCell := ⟨by simp [exCell], rfl, by simp [exCell]⟩

example := init_good (data := exCell.data) (by simp [exCell]) exCell_good.shapes
example := deserialize_serialize exCell_good
example := deserializeReal_serializeReal exCell_good
example := load_store exCell_good (fun _ => none) (name := 'a' :: npy) (by decide)
example := load_store_fails exCell_good
example : exCell.call 1 = .error .indexError := by
  have := (call_shifted exCell_good).2.1
  simpa [call, exCell, pyGetI, pyGet] using this

end Cell

end Xmps
