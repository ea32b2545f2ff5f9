import Verif.Model.Fmpo

/-!
# Model of the constructions and rotations of `fMPO` (`fPEPS.py:195-236`)
-/

namespace Xmps.FMPO

/-- `fPEPS.py:208-217` `create_structure(L, d, X)` -/
def createStructure (L d X : ℕ) : List (List ℕ) := [[d, X, d, 1]] ++ (List.range (L - 2)).map (fun _ => [d, X, d, X]) ++ [[d, 1, d, X]]

/-- `fPEPS.py:225-229` `random(L, d, X)`; the entries of the `k`-th array are a parameter -/
def random (rnd : ℕ → List ℕ → ℂ) (L d X : ℕ) : FMPO := ⟨(createStructure L d X).mapIdx fun k sh => ⟨sh, rnd k⟩, L, d, X⟩

/-- `fPEPS.py:231-236` `A.trivial(L)`; `L` of the object is left as it was (an object made by `fMPO()` has none) -/
def trivial (A : FMPO) (L : ℕ) : FMPO := { A with data := (createStructure L 1 1).map fun sh => ⟨sh, fun _ => 1⟩, d := 1, X := 1 }

/-- `fPEPS.py:195-198` `rotate_90` -/
def rotate90 (A : FMPO) : Py FMPO := do
  let data ← A.data.mapM (·.transpose [3, 0, 1, 2])
  init data

/-- `fPEPS.py:200-202` `unrotate_90` -/
def unrotate90 (A : FMPO) : Py FMPO := do
  let data ← A.data.mapM (·.transpose [1, 2, 3, 0])
  init data

end Xmps.FMPO
