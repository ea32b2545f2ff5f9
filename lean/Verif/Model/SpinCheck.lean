import Verif.Model.Spin
import Verif.Model.SpinOps

/-!
# Model of the checks `CR` and `pCR` of `spin.py`

The three operators are square matrices of one size.  Arithmetic is exact; `allclose` has numpy's default tolerances.
-/

namespace Xmps.Spin

open Finset

/-- `numpy.allclose(A, B)`: `|A - B| ≤ 1e-8 + 1e-5 |B|` for every entry -/
noncomputable def closeM {m : ℕ} (A B : Matrix (Fin m) (Fin m) ℂ) : Bool :=
  open Classical in decide (∀ i j, ‖A i j - B i j‖ ≤ 1e-8 + 1e-5 * ‖B i j‖)

/-- `spin.py:304-305`, `315-316`: one comparison; `c` is `1` in `CR` and `2` in `pCR`. -/
noncomputable def relClose {m : ℕ} (c : ℤ) (eps : ND ℤ) (S : ℕ → Matrix (Fin m) (Fin m) ℂ) (j k : ℕ) : Bool :=
  closeM (comm (S j) (S k)) (∑ l ∈ range 3, (((c * eps.val [j, k, l] : ℤ) : ℂ) * Complex.I) • S l)

/-- the list `[Sx, Sy, Sz]` -/
def triple {m : ℕ} (x y z : Matrix (Fin m) (Fin m) ℂ) : ℕ → Matrix (Fin m) (Fin m) ℂ
  | 0 => x
  | 1 => y
  | _ => z

/-- `spin.py:297-317` `CR` (`c = 1`) and `pCR` (`c = 2`): the loop over `product(range(3), range(3))`. -/
noncomputable def checkCR {m : ℕ} (c : ℤ) (x y z : Matrix (Fin m) (Fin m) ℂ) : Py Bool := do
  let eps ← leviCivita 3
  .ok ((List.range 3).all fun j : ℕ => (List.range 3).all fun k : ℕ => relClose c eps (triple x y z) j k)

/-- `spin.py:297-306` `CR` -/
noncomputable def CR {m : ℕ} (x y z : Matrix (Fin m) (Fin m) ℂ) : Py Bool := checkCR 1 x y z

/-- `spin.py:308-317` `pCR` -/
noncomputable def pCR {m : ℕ} (x y z : Matrix (Fin m) (Fin m) ℂ) : Py Bool := checkCR 2 x y z

end Xmps.Spin
