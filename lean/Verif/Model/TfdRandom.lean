import Verif.Model.Tfd
import Verif.Model.IsoRandom

/-!
# Model of `fTFD.random` (`fMPS.py:2085-2095`)
-/

namespace Xmps.TFD

/-- `fMPS.py:2085-2095` `random(L, d, D, pure)` for a number `D`.  The random numbers are the parameters of `FMPS.random`, the other attributes are those
that `fMPS.random` leaves (`pure`) or those of the new object that `symmetrise` makes. -/
noncomputable def random (ang : ℕ → ℝ × ℝ) (rnd : ℕ → List ℕ → ℝ × ℝ) (x : FMPS ℂ) (L d D : ℕ) (pure : Bool := true) : Py (FMPS ℂ) :=
  if pure then do
    let y ← x.random ang rnd L d (some D)
    let data ← (y.data.zip y.data).mapM fun (a, b) => kron3 a b
    .ok { y with data := data, d := d ^ 2, D := D ^ 2 }
  else do
    let y ← x.random ang rnd L (d ^ 2) (some (D ^ 2))
    symmetrise y

end Xmps.TFD
