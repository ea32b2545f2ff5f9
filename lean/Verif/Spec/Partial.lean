import Verif.Base.ND

/-!
# Specification of partial traces

A system of `dims.length` parts; `keep` lists the parts that are kept.  `kept`/`traced` are the kept
and the other positions in increasing order.  `merge keep n a t` is the basis state of the whole
system whose kept parts have the values `a` and whose other parts have the values `t`.
-/

namespace Xmps.Spec

variable {K : Type}

/-- The kept positions in increasing order. -/
def kept (keep : List ℕ) (n : ℕ) : List ℕ := (List.range n).filter (· ∈ keep)
/-- The other positions in increasing order. -/
def traced (keep : List ℕ) (n : ℕ) : List ℕ := (List.range n).filter (· ∉ keep)

/-- The basis state with values `a` on the kept parts and `t` on the traced parts. -/
def merge (keep : List ℕ) (n : ℕ) (a t : List ℕ) : List ℕ :=
  (List.range n).map fun p =>
    if p ∈ keep then a.getD ((kept keep n).idxOf p) 0 else t.getD ((traced keep n).idxOf p) 0

/-- Entry `(a, b)` of the partial trace of the matrix with entries `M x y` (`x`, `y` basis states). -/
def ptrace [AddCommMonoid K] (M : List ℕ → List ℕ → K) (keep dims a b : List ℕ) : K :=
  sumIdx ((traced keep dims.length).map fun p => dims.getD p 0) fun t =>
    M (merge keep dims.length a t) (merge keep dims.length b t)

end Xmps.Spec
