import Mathlib.Data.List.GetD
import Verif.Base.ND

/-!
# numpy operations

`op` is the checked operation (raises as numpy does), `opR` the raw result it returns.
Axis arguments are natural numbers (numpy also accepts negative axes; the modelled code passes
non-negative ones to these functions).
-/

namespace Xmps
namespace ND

open Finset

variable {K : Type}

/-- `perm` is a permutation of `0..n-1`. -/
def isPerm (perm : List ℕ) (n : ℕ) : Bool :=
  perm.length == n && perm.all (· < n) && decide perm.Nodup

/-- `A.transpose(perm)`: output axis `q` is input axis `perm[q]`. -/
def transposeR (A : ND K) (perm : List ℕ) : ND K where
  shape := perm.map A.dim
  val idx := A.val ((List.range A.rank).map fun p => idx.getD (perm.idxOf p) 0)

/-- `A.transpose(perm)`, `ValueError` unless `perm` is a permutation of the axes. -/
def transpose (A : ND K) (perm : List ℕ) : Py (ND K) :=
  if isPerm perm A.rank then .ok (A.transposeR perm) else .error .valueError

/-- The axes not in `ax`, ascending. -/
def others (n : ℕ) (ax : List ℕ) : List ℕ := (List.range n).filter (· ∉ ax)

/-- `np.tensordot(A, B, (axA, axB))`: remaining legs of `A`, then remaining legs of `B`. -/
def tensordotR [AddCommMonoid K] [Mul K] (A B : ND K) (axA axB : List ℕ) : ND K :=
  let na := others A.rank axA
  let nb := others B.rank axB
  { shape := na.map A.dim ++ nb.map B.dim
    val := fun idx => sumIdx (axA.map A.dim) fun ks =>
      (A.transposeR (na ++ axA)).val (idx.take na.length ++ ks) *
      (B.transposeR (axB ++ nb)).val (ks ++ idx.drop na.length) }

/-- `np.tensordot` with its checks: axes in range (`IndexError`), equally many, equal extents,
no repeated axis (`ValueError`). -/
def tensordot [AddCommMonoid K] [Mul K] (A B : ND K) (axA axB : List ℕ) : Py (ND K) :=
  if !(axA.length == axB.length) then .error .valueError
  else if !(axA.all (· < A.rank) && axB.all (· < B.rank)) then .error .indexError
  else if !(axA.map A.dim == axB.map B.dim && decide axA.Nodup && decide axB.Nodup) then
    .error .valueError
  else .ok (A.tensordotR B axA axB)

/-- `A.trace(axis1=a1, axis2=a2)` -/
def traceR [AddCommMonoid K] (A : ND K) (a1 a2 : ℕ) : ND K :=
  let rest := others A.rank [a1, a2]
  { shape := rest.map A.dim
    val := fun idx => ∑ k ∈ range (min (A.dim a1) (A.dim a2)),
      (A.transposeR (rest ++ [a1, a2])).val (idx ++ [k, k]) }

/-- `A.trace(axis1=a1, axis2=a2)` with its checks. -/
def trace [AddCommMonoid K] (A : ND K) (a1 a2 : ℕ) : Py (ND K) :=
  if !(decide (a1 < A.rank) && decide (a2 < A.rank)) then .error .valueError
  else if a1 == a2 then .error .valueError
  else .ok (A.traceR a1 a2)

/-- `np.expand_dims(A, A.ndim)`: a new last axis of extent 1. -/
def expandLast (A : ND K) : ND K where
  shape := A.shape ++ [1]
  val idx := A.val (idx.take A.rank)

/-- `A.reshape(sh)` (C order). -/
def reshapeR (A : ND K) (sh : List ℕ) : ND K where
  shape := sh
  val idx := A.val (unravel A.shape (ravel sh idx))

/-- `A.reshape(sh)` (C order), `ValueError` when the sizes differ. -/
def reshape (A : ND K) (sh : List ℕ) : Py (ND K) :=
  if A.size == sh.prod then .ok (A.reshapeR sh) else .error .valueError

/-- `A.reshape(sh, order='F')`. -/
def reshapeFR (A : ND K) (sh : List ℕ) : ND K where
  shape := sh
  val idx := A.val (unravelF A.shape (ravelF sh idx))

/-- `A.reshape(sh, order='F')`, `ValueError` when the sizes differ. -/
def reshapeF (A : ND K) (sh : List ℕ) : Py (ND K) :=
  if A.size == sh.prod then .ok (A.reshapeFR sh) else .error .valueError

/-- `A.conj()` -/
def conj [Star K] (A : ND K) : ND K := ⟨A.shape, fun idx => star (A.val idx)⟩

/-- `c * A` -/
def smul [Mul K] (c : K) (A : ND K) : ND K := ⟨A.shape, fun idx => c * A.val idx⟩

/-- `A.reshape(-1)` / `A.ravel()` as a Python list of entries (C order). -/
def flat (A : ND K) : List K := (List.range A.size).map fun k => A.val (unravel A.shape k)

/-- `np.array(l).reshape(sh)` for a list of entries in C order (entries past the end read as 0). -/
def ofFlat [Zero K] (sh : List ℕ) (l : List K) : ND K := ⟨sh, fun idx => l.getD (ravel sh idx) 0⟩

/-! ### basic facts -/

@[simp] theorem shape_transposeR (A : ND K) (p : List ℕ) : (A.transposeR p).shape = p.map A.dim := rfl
@[simp] theorem shape_conj [Star K] (A : ND K) : A.conj.shape = A.shape := rfl
@[simp] theorem val_conj [Star K] (A : ND K) (i : List ℕ) : A.conj.val i = star (A.val i) := rfl
@[simp] theorem shape_smul [Mul K] (c : K) (A : ND K) : (A.smul c).shape = A.shape := rfl
@[simp] theorem val_smul [Mul K] (c : K) (A : ND K) (i : List ℕ) : (A.smul c).val i = c * A.val i := rfl
@[simp] theorem shape_reshapeR (A : ND K) (sh : List ℕ) : (A.reshapeR sh).shape = sh := rfl
@[simp] theorem shape_expandLast (A : ND K) : A.expandLast.shape = A.shape ++ [1] := rfl

theorem isPerm_iff {perm : List ℕ} {n : ℕ} : isPerm perm n = true ↔ perm.Perm (List.range n) := by
  unfold isPerm
  simp only [Bool.and_eq_true, beq_iff_eq, List.all_eq_true, decide_eq_true_eq]
  constructor
  · rintro ⟨⟨hl, hlt⟩, hn⟩
    refine (List.subperm_of_subset hn ?_).perm_of_length_le (by simp [hl])
    intro x hx
    simpa using hlt x hx
  · intro h
    refine ⟨⟨by simpa using h.length_eq, fun x hx => by simpa using h.mem_iff.1 hx⟩,
      h.nodup_iff.2 List.nodup_range⟩

theorem transpose_ok {A : ND K} {perm : List ℕ} (h : perm.Perm (List.range A.rank)) :
    A.transpose perm = .ok (A.transposeR perm) := by
  simp [transpose, isPerm_iff.2 h]

/-- Entry of a transposed array, in terms of axis labels. -/
theorem val_transposeR_label {α : Type} (A : ND K) (perm : List ℕ) (v : List α) (ρ : α → ℕ) (z : α)
    (hv : A.rank = v.length) (hp : perm.Perm (List.range v.length)) :
    (A.transposeR perm).val ((perm.map (fun p => v.getD p z)).map ρ) = A.val (v.map ρ) := by
  rw [← hv] at hp
  have hnd : perm.Nodup := hp.nodup_iff.2 List.nodup_range
  show A.val _ = A.val _
  congr 1
  apply List.ext_getElem
  · simp [hv]
  intro i h1 h2
  simp only [List.length_map, List.length_range] at h1
  have hi : i ∈ perm := hp.mem_iff.2 (by simpa using h1)
  have hlt := List.idxOf_lt_length_of_mem hi
  simp only [List.getElem_map, List.getElem_range]
  rw [List.getD_eq_getElem _ _ (by simpa using hlt)]
  simp only [List.getElem_map, List.getElem_idxOf]
  rw [List.getD_eq_getElem _ _ (by omega)]

theorem mem_others {n : ℕ} {ax : List ℕ} {i : ℕ} : i ∈ others n ax ↔ i < n ∧ i ∉ ax := by
  simp [others]

theorem nodup_others (n : ℕ) (ax : List ℕ) : (others n ax).Nodup := List.nodup_range.filter _

theorem others_append_perm {n : ℕ} {ax : List ℕ} (hn : ax.Nodup) (hlt : ∀ a ∈ ax, a < n) :
    (others n ax ++ ax).Perm (List.range n) := by
  rw [List.perm_ext_iff_of_nodup ?_ List.nodup_range]
  · intro a
    simp only [List.mem_append, mem_others, List.mem_range]
    constructor
    · rintro (h | h)
      · exact h.1
      · exact hlt a h
    · intro h
      by_cases ha : a ∈ ax
      · exact Or.inr ha
      · exact Or.inl ⟨h, ha⟩
  · refine List.Nodup.append (nodup_others _ _) hn ?_
    intro a h1 h2
    exact (mem_others.1 h1).2 h2

theorem append_others_perm {n : ℕ} {ax : List ℕ} (hn : ax.Nodup) (hlt : ∀ a ∈ ax, a < n) :
    (ax ++ others n ax).Perm (List.range n) :=
  List.perm_append_comm.trans (others_append_perm hn hlt)

end ND
end Xmps
