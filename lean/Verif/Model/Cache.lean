import Verif.Base.NpOps

/-!
# Model of the caches of `fMPS.F1`, `fMPS.F2` and `fMPS.christoffel` (`xmps/fMPS.py`)

The tensors are an abstract type `V`; the contractions of the bodies are parameters that depend only on
the site numbers (the other arguments `H`, `envs`, ... are the same for all calls with one `id`).
A dictionary is an association list, the newest entry first.  `str(i)` is the list of decimal digits.
-/

namespace Xmps.Cache

/-- `str(i)` for a site number. -/
def str (i : ℕ) : List Char := Nat.toDigits 10 i

/-- A Python dictionary with string keys. -/
abbrev Dict (V : Type) := List (List Char × V)

variable {V I J : Type}

/-- The attributes `id`, `F1_i_mem_`, `F1_j_mem_`, `F1_tot_ij_mem`. -/
structure St (V I J : Type) where
  id : ℕ
  iMem : Dict I
  jMem : Dict J
  tot : Dict V

/-- The contractions in the body: the properties of `i`, those of `j`, the tensor computed from both
(`i ≤ j`), and the exchange of the two sites (`c(tra(., [2, 3, 0, 1]))` in `F1`, `tra(., [2, 3, 0, 1])`
in `F2`). -/
structure Body (V I J : Type) where
  iProp : ℕ → I
  jProp : ℕ → J
  tensor : ℕ → ℕ → I → J → V
  flip : V → V

/-- `if key not in mem: compute and store, else: read` -/
def memo {α : Type} (mem : Dict α) (key : List Char) (compute : α) : α × Dict α :=
  match mem.lookup key with
  | some a => (a, mem)
  | none => (compute, (key, compute) :: mem)

/-- `fMPS.py:1388-1628` the part of `F1` after the cache lookup: the pair is sorted, the inner memos are
consulted, the result is exchanged back if the pair was not sorted, and stored.  (The branch that skips the
contraction when `d*D_{i-1} == D_i` depends on `i` only and is part of `tensor`.) -/
def compute (B : Body V I J) (st : St V I J) (i_ j_ : ℕ) : V × St V I J :=
  let i := if j_ < i_ then j_ else i_
  let j := if j_ < i_ then i_ else j_
  let p := memo st.iMem (str i) (B.iProp i)
  let q := memo st.jMem (str j) (B.jProp j)
  let G := B.tensor i j p.1 q.1
  let G := if j_ < i_ then B.flip G else G
  (G, { st with iMem := p.2, jMem := q.2, tot := (str i_ ++ str j_, G) :: st.tot })

/-- `fMPS.py:1364-1628` `F1` with an explicit `id`, `fullH=False`, `testing=False`. -/
def F1 (B : Body V I J) (st : St V I J) (id i_ j_ : ℕ) : V × St V I J :=
  if st.id ≠ id then compute B { id := id, iMem := [], jMem := [], tot := [] } i_ j_
  else match st.tot.lookup (str i_ ++ str j_) with
    | some v => (v, st)
    | none => match st.tot.lookup (str j_ ++ str i_) with
      | some v => (B.flip v, st)
      | none => compute B st i_ j_

/-- A sequence of calls with one `id`: the returned tensors. -/
def run (B : Body V I J) (id : ℕ) : St V I J → List (ℕ × ℕ) → List V
  | _, [] => []
  | st, (i, j) :: reqs =>
    let r := F1 B st id i j
    r.1 :: run B id r.2 reqs

/-- The tensor a call with an unused `id` returns. -/
def fresh (B : Body V I J) (i_ j_ : ℕ) : V :=
  if j_ < i_ then B.flip (B.tensor j_ i_ (B.iProp j_) (B.jProp i_)) else B.tensor i_ j_ (B.iProp i_) (B.jProp j_)

/-! ### `christoffel` -/

/-- The attributes `id__`, `christ_tot_ij_mem` (the inner cache `christ_ij_mem` is part of `gamma`). -/
structure ChSt (V : Type) where
  id : ℕ
  tot : Dict V

/-- `fMPS.py:1794-1896` `christoffel` with `closed = (None, None, B)`: `gamma` is `Γ(i, j, k)`, `ungauge` the
final change of basis, `flip` is `tra(., [3, 4, 5, 0, 1, 2])`. -/
def christoffel (gamma : ℕ → ℕ → ℕ → V) (ungauge : ℕ → ℕ → V → V) (flip : V → V) (st : ChSt V) (id i j k : ℕ) : V × ChSt V :=
  let fresh := decide (st.id ≠ id)
  let st := if fresh then { id := id, tot := [] } else st
  let hit : Option V :=
    if fresh then none
    else match st.tot.lookup (str i ++ str j ++ str k) with
      | some v => some v
      | none => match st.tot.lookup (str j ++ str i ++ str k) with
        | some v => some (flip v)
        | none => none
  match hit with
  | some v => (v, st)
  | none =>
    let G := gamma i j k
    (ungauge i j G, { st with tot := (str i ++ str j ++ str k, G) :: st.tot })

end Xmps.Cache
