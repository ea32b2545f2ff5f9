import Verif.Spec.Tangent
import Verif.Spec.Expect

/-!
# Specification: a matrix acting on the vector of a whole chain
-/

namespace Xmps.Spec

/-- `H f` for a matrix `H` whose rows and columns are the basis states in row-major order -/
def fullAct (ds : List ℕ) (H : ND ℂ) (f : List ℕ → ℂ) (s : List ℕ) : ℂ := sumIdx ds fun t => matElem ds H s t * f t

end Xmps.Spec
