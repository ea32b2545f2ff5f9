import Verif.Model.Orthogonalise

/-!
# Model of the expectation values of `fMPS` (`fMPS.py:755-764`, `835-848`, `916-925`, `943-984`)

The methods may change the gauge of the receiver, so the model returns the value and the changed
receiver.  `re(..)` of the scalar array is a real number.  Sites are natural numbers (negative Python
indices are not modelled).
-/

namespace Xmps.FMPS

open Xmps.Ncon

/-- `fMPS.py:835-843` `links(k)` (`op=True`), with `k` given. -/
def linksOp (L : ℕ) : List (List ℤ) :=
  (List.range' 1 L).map (fun (n : ℕ) => [(n : ℤ), 2 * L + n, 2 * L + n + 1]) ++
  [(List.range' 1 (2 * L)).map fun (n : ℕ) => (n : ℤ)] ++
  (List.range' 1 L).map fun (n : ℕ) =>
    [(L : ℤ) + n, if n ≠ 1 then 3 * L + n else 2 * L + n, if n ≠ L then 3 * L + n + 1 else 2 * L + n + 1]

variable (qr rq : ND ℂ → Py (ND ℂ × ND ℂ)) (O : SetOrder)

/-- `fMPS.py:922-923`, `951-952`: the test before a local expectation value. -/
noncomputable def recenter (x : FMPS ℂ) (sites : List ℕ) : Py (FMPS ℂ) :=
  if (x.canonical = false ∧ x.orthogonal = false) ∨ (∃ c, x.oc = some c ∧ c ∉ sites) then do
    let s ← pyGet sites 0
    x.mixedOrthogonalise qr rq s
  else .ok x

/-- `fMPS.py:916-925` `E(op, site)`. -/
noncomputable def E (x : FMPS ℂ) (op : ND ℂ) (site : ℕ) : Py (ℝ × FMPS ℂ) := do
  let x ← x.recenter qr rq [site]
  let M ← pyGet x.data site
  let R ← ncon O (.many [M, M.conj, op]) (.nested [[1, 3, 4], [2, 3, 4], [1, 2]]) (some [3, 4, 1, 2]) none false
  .ok ((R.val []).re, x)

/-- `fMPS.py:943-956` `E_k(op, sites)` with `single_string=False`. -/
noncomputable def Ek (x : FMPS ℂ) (op : ND ℂ) (sites : List ℕ) : Py (ℝ × FMPS ℂ) := do
  let x ← x.recenter qr rq sites
  let Ms ← sites.mapM (pyGet x.data)
  let k := sites.length
  let op ← op.reshape (List.replicate (2 * k) x.d)
  let R ← nc O (Ms.map ND.conj ++ [op] ++ Ms) (linksOp k)
  .ok ((R.val []).re, x)

/-- `fMPS.py:943-961` `E_k(ops, sites, single_string=True)`; `links[int(len(links)/2)]` is the entry
number `k` of the `2k+1` links. -/
noncomputable def EkString (x : FMPS ℂ) (ops : List (ND ℂ)) (sites : List ℕ) : Py (ℝ × FMPS ℂ) := do
  let x ← x.recenter qr rq sites
  let Ms ← sites.mapM (pyGet x.data)
  let k := sites.length
  let links := linksOp k
  let big ← pyGet links (links.length / 2)
  let opLinks ← (List.range k).mapM fun i => do
    let a ← pyGet big i
    let b ← pyGet big (i + k)
    .ok [a, b]
  let R ← nc O (Ms.map ND.conj ++ ops ++ Ms) (links.take (links.length / 2) ++ opLinks ++ links.drop (links.length / 2 + 1))
  .ok ((R.val []).re, x)

/-- `fMPS.py:963-969` `E_L(op)`. -/
noncomputable def EL (x : FMPS ℂ) (op : ND ℂ) : Py ℝ := do
  let op ← op.reshape (List.replicate (2 * x.L) x.d)
  let R ← nc O (x.data.map ND.conj ++ [op] ++ x.data) (linksOp x.L)
  .ok (R.val []).re

/-- `fMPS.py:981-982`: the links of `rho`. -/
def linksRho (k : ℕ) : List (List ℤ) :=
  (List.range' 1 k).map (fun (i : ℕ) => if i ≠ k then [-(i : ℤ), i, i + 1] else [-(i : ℤ), i, 2 * k + 1]) ++
  (List.range' (k + 1) k).map fun (i : ℕ) => if i ≠ k + 1 then [-(i : ℤ), i, i + 1] else [-(i : ℤ), 1, i + 1]

/-- `fMPS.py:976-977`: one density matrix per site. -/
def rhoString (x : FMPS ℂ) (sites : List ℕ) : Py (List (ND ℂ)) :=
  sites.mapM fun i => do
    let A ← pyGet x.data i
    nc O [A.squeeze, A.conj.squeeze] [[-1], [-2]]

/-- `fMPS.py:979-980`: move the centre to the first site unless it is among the sites. -/
noncomputable def recenterRho (x : FMPS ℂ) (sites : List ℕ) : Py (FMPS ℂ) :=
  if x.oc = none ∨ (∃ c, x.oc = some c ∧ c ∉ sites) then do
    let s ← pyGet sites 0
    x.mixedOrthogonalise qr rq s
  else .ok x

/-- `fMPS.py:979-984`: the reduced density matrix of the sites. -/
noncomputable def rhoFull (x : FMPS ℂ) (sites : List ℕ) : Py (ND ℂ × FMPS ℂ) := do
  let x ← x.recenterRho qr rq sites
  let Ms ← sites.mapM (pyGet x.data)
  let R ← nc O (Ms ++ Ms.map ND.conj) (linksRho sites.length)
  let S := x.d ^ sites.length
  let R ← R.reshape [S, R.size / S]
  .ok (R, x)

/-- `fMPS.rho(sites)` with the default `single_string=True`, `fMPS.py:971-984`. -/
noncomputable def rho (x : FMPS ℂ) (sites : List ℕ) : Py ((List (ND ℂ) ⊕ ND ℂ) × FMPS ℂ) := do
  let D ← bondDimension x.data
  if D = 1 then do
    let rs ← x.rhoString O sites
    .ok (.inl rs, x)
  else do
    let (R, x) ← x.rhoFull qr rq O sites
    .ok (.inr R, x)

/-- `fMPS.local_overlap(other, sites)`, `fMPS.py:755-764`; the second and third components are the
two objects afterwards (`rho` and `E_k` may move the centres).  `E_k` with the wrong kind of operator
cannot occur: the test on the bond dimension is the one that `rho` makes. -/
noncomputable def localOverlap (x y : FMPS ℂ) (sites : List ℕ) : Py (ℝ × FMPS ℂ × FMPS ℂ) := do
  let D ← bondDimension x.data
  if D = 1 then do
    let rs ← x.rhoString O sites
    let (v, y) ← y.EkString qr rq O rs sites
    .ok (v, x, y)
  else do
    let D' ← bondDimension y.data
    if D' = 1 then do
      let rs ← y.rhoString O sites
      let (v, x) ← x.EkString qr rq O rs sites
      .ok (v, x, y)
    else do
      let (R, y) ← y.rhoFull qr rq O sites
      let (v, x) ← x.Ek qr rq O R sites
      .ok (v, x, y)

end Xmps.FMPS
