import Verif.Model.Heap

/-!
# Specification of independence of objects (C40)
-/

namespace Xmps.Spec

/-- no two objects refer to the same list, all references are valid, and no list is longer than the `L` of its object -/
structure Separate (h : Heap) : Prop where
  valid : ∀ o < h.no, (h.obj o).lst < h.nl
  apart : ∀ o < h.no, ∀ o' < h.no, o ≠ o' → (h.obj o).lst ≠ (h.obj o').lst
  cells : ∀ o < h.no, ∀ a ∈ h.lst (h.obj o).lst, a < h.na
  short : ∀ o < h.no, (h.lst (h.obj o).lst).length ≤ (h.obj o).L

/-- between `h0` and `h` no array has changed, no object has disappeared, and the objects other than `c` look the same -/
structure OnlyChanges (c : Option ℕ) (h0 h : Heap) : Prop where
  na : h0.na ≤ h.na
  arr : ∀ a < h0.na, h.arr a = h0.arr a
  no : h0.no ≤ h.no
  view : ∀ o < h0.no, c ≠ some o → h.view o = h0.view o

/-- on the object `o` of the heap `h` the method `m` returns with the value computed by `p`, or raises the exception of `p` -/
def Refines (m : HM Unit) (p : FMPS ℂ → Py (FMPS ℂ)) (h : Heap) (o : ℕ) : Prop :=
  (∀ y, p (h.view o) = .ok y → (m h).1 = .ok () ∧ (m h).2.view o = y) ∧ ∀ e, p (h.view o) = .error e → (m h).1 = .error e

end Xmps.Spec
