import Verif.Lemmas.FmpsArith
import Mathlib.Data.Complex.Basic
import Mathlib.Data.Complex.BigOperators

/-! # Lemmas about `post_select` and conjugates, and concrete objects for the examples -/

namespace Xmps

open Finset Xmps.Spec Xmps.Ncon

variable {K : Type}

theorem insertIdx_append {α : Type} (s1 s2 : List α) (t : α) :
    (s1 ++ s2).insertIdx s1.length t = s1 ++ t :: s2 := by
  induction s1 with
  | nil => simp
  | cons a s1 ih => simp [ih]

theorem slices_extra : ∀ {ds : List ℕ} {As : List (ND K)} {ss extra : List ℕ} {l r : ℕ} (pre : List ℕ),
    MpsChain ds As l r → InB ds ss →
    ((As.zipIdx pre.length).mapM fun (p : ND K × ℕ) => do
      let i ← pyGet (pre ++ ss ++ extra) p.2
      p.1.slice0 i) = .ok (slicesOf As ss)
  | [], [], [], _, _, _, _, _, _ => rfl
  | d :: ds, A :: As, s :: ss, extra, l, r, pre, h, hb => by
    obtain ⟨m, hA, h⟩ := h
    have ih := slices_extra (extra := extra) (pre ++ [s]) h hb.2
    rw [List.zipIdx_cons, List.mapM_cons]
    have e1 : pyGet (pre ++ s :: ss ++ extra) pre.length = .ok s := by simp [pyGet]
    simp only [e1, ok_bind, ND.slice0_ok hA hb.1]
    have e2 : (pre ++ [s]).length = pre.length + 1 := by simp
    have e3 : pre ++ [s] ++ ss ++ extra = pre ++ s :: ss ++ extra := by simp
    rw [e2, e3] at ih
    rw [ih]
    simp [slicesOf, hA]
  | [], _ :: _, _, _, _, _, _, h, _ => by simp at h
  | _ :: _, [], _, _, _, _, _, h, _ => by simp at h
  | _ :: _, _ :: _, [], _, _, _, _, _, h => by simp at h
  | [], [], _ :: _, _, _, _, _, _, h => by simp at h

/-- The amplitude function only reads as many indices as there are tensors. -/
theorem amplitudeAt_extra [CommSemiring K] {ds : List ℕ} {As : List (ND K)} {ss extra : List ℕ} (h : MpsChain ds As 1 1)
    (hne : ds ≠ []) (hb : InB ds ss) : FMPS.amplitudeAt As (ss ++ extra) = .ok (psi As ss) := by
  rw [← amplitudeAt_ok h hne hb]
  have h1 := slices_ok [] h hb
  have h2 := slices_extra (extra := extra) [] h hb
  simp only [List.length_nil, List.nil_append] at h1 h2
  unfold FMPS.amplitudeAt
  simp only [h1, h2, ok_bind]

section star
variable [CommSemiring K] [StarRing K]

theorem star_sumIdx : ∀ (s : List ℕ) (f : List ℕ → K), star (sumIdx s f) = sumIdx s fun i => star (f i)
  | [], f => rfl
  | n :: s, f => by
    simp only [sumIdx_cons, star_sum]
    exact Finset.sum_congr rfl fun i _ => star_sumIdx s _

theorem star_braket (ds : List ℕ) (As Bs : List (ND K)) : star (braket ds As Bs) = braket ds Bs As := by
  unfold braket
  rw [star_sumIdx]
  refine sumIdx_congr fun s _ => ?_
  simp [mul_comm]

end star

/-! ### concrete objects meeting the hypotheses -/

/-- a two-site chain with bond dimension 2 -/
def exData (c : ℂ) : List (ND ℂ) :=
  [⟨[2, 1, 2], fun | [s, _, b] => if s = b then c else 0 | _ => 0⟩,
   ⟨[2, 2, 1], fun | [s, a, _] => if s = a then 1 else Complex.I | _ => 0⟩]

theorem exData_chain (c : ℂ) : MpsChain [2, 2] (exData c) 1 1 := ⟨2, rfl, 1, rfl, rfl⟩

/-- a one-site chain holding the vector `v` -/
def exOne (v : List ℂ) : FMPS ℂ := ⟨[FMPS.column v], 1, v.length, 1, false, false, none, none⟩

theorem exOne_holds (v : List ℂ) : (exOne v).Holds [v.length] := ⟨⟨1, rfl, rfl⟩, by simp, rfl, rfl⟩

theorem exOne_psi (v : List ℂ) (s : ℕ) : psi (exOne v).data [s] = v.getD s 0 := by
  simp [psi, exOne, pathProd, FMPS.column]

/-- the object made from `exData` -/
def exTwo (c : ℂ) : FMPS ℂ := ⟨exData c, 2, 2, 2, false, false, none, none⟩

theorem exTwo_holds (c : ℂ) : (exTwo c).Holds (List.replicate 2 2) := ⟨exData_chain c, by simp, rfl, rfl⟩

/-- the constructor returns exactly that object -/
example (c : ℂ) : FMPS.init (exData c) = .ok (exTwo c) := rfl

/-- its amplitudes: `ψ(s,t) = c` for `s = t`, `c·i` otherwise -/
example (c : ℂ) : psi (exTwo c).data [0, 1] = c * Complex.I := by
  simp [psi, exTwo, exData, pathProd, ND.dim, Finset.sum_range_succ]

end Xmps
