import Verif.Lemmas.Chain
import Mathlib.Analysis.Complex.Basic

/-!
# Specification of matrix product operators with axes (row, column, left, right), and of the effective Hamiltonian at one site
-/

namespace Xmps.Spec

open Finset

/-- Chain of rank 4 arrays of shapes `(d_k, d_k, b_k, b_{k+1})`, `b_0 = l`, `b_L = r`. -/
def OpChain : List ℕ → List (ND ℂ) → ℕ → ℕ → Prop
  | [], [], l, r => l = r
  | d :: ds, W :: Ws, l, r => ∃ m, W.shape = [d, d, l, m] ∧ OpChain ds Ws m r
  | _, _, _, _ => False

/-- `⟨s|O|t⟩` between the left bond value `a` and the right bond value `b` -/
noncomputable def opAmp : List (ND ℂ) → List ℕ → List ℕ → ℕ → ℕ → ℂ
  | [], [], [], a, b => if a = b then 1 else 0
  | W :: Ws, s :: ss, t :: ts, a, b => ∑ c ∈ range (W.dim 3), W.val [s, t, a, c] * opAmp Ws ss ts c b
  | _, _, _, _, _ => 0

/-- The effective Hamiltonian at one site: `⟨ψ(i', a', b')|O|ψ(i, a, b)⟩`, where `ψ(i, a, b)` is the state whose site tensor has the single
entry 1 at `(i, a, b)` between the tensors `As1` and `As2`. -/
noncomputable def effElem (ds1 ds2 : List ℕ) (As1 As2 Ws : List (ND ℂ)) (i' a' b' i a b : ℕ) : ℂ :=
  sumIdx ds1 fun s1 => sumIdx ds1 fun t1 => sumIdx ds2 fun s2 => sumIdx ds2 fun t2 =>
    star (amp As1 s1 0 a' * amp As2 s2 b' 0) * opAmp Ws (s1 ++ i' :: s2) (t1 ++ i :: t2) 0 0 * (amp As1 t1 0 a * amp As2 t2 b 0)

/-- The same with the right bond index of bra and ket exchanged (the transpose on the right part of the chain). -/
noncomputable def effElemT (ds1 ds2 : List ℕ) (As1 As2 Ws : List (ND ℂ)) (i' a' b' i a b : ℕ) : ℂ := effElem ds1 ds2 As1 As2 Ws i' a' b i a b'

end Xmps.Spec
