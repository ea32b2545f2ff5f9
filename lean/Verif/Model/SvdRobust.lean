import Verif.Spec.Lapack

/-!
# Model of `svd` of `svd_robust.py`

`gesdd` and `gesvd` are `scipy.linalg.svd` with the two LAPACK drivers and the other arguments fixed.  `numpy.linalg.LinAlgError` is a subclass of
`Exception` (and, in the numpy versions of the time, of `Exception` only), so the `except` clause catches nothing else.  The branch for scipy before
0.18 (`svd_gesvd`, ctypes) is not modelled, and neither is the warning.
-/

namespace Xmps.SvdRobust

/-- `svd_robust.py:116-124`: the result of the attempt with `gesdd`; `none` is falling through to the code below. -/
def attempt {α : Type} (gesdd : ND ℂ → Py α) (driver : String) (a : ND ℂ) : Py (Option α) :=
  if driver = "gesdd" then
    match gesdd a with
    | .ok x => .ok (some x)
    | .error .linAlgError => .ok none
    | .error e => .error e
  else .ok none

/-- `svd_robust.py:125-130`: the check of the driver and the backup plan -/
def backup {α : Type} (gesvd : ND ℂ → Py α) (driver : String) (a : ND ℂ) : Option α → Py α
  | some x => .ok x
  | none => do
    guardPy (["gesdd", "gesvd"].contains driver) .valueError
    gesvd a

/-- `svd_robust.py:79-133` `svd(a, lapack_driver=driver)` -/
def svd {α : Type} (gesdd gesvd : ND ℂ → Py α) (driver : String) (a : ND ℂ) : Py α := do
  let x ← attempt gesdd driver a
  backup gesvd driver a x

end Xmps.SvdRobust
