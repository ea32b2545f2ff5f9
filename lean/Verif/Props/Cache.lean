import Mathlib.Data.Nat.Digits.Defs
import Mathlib.Tactic.IntervalCases
import Verif.Model.Cache

/-! # Property C34: the caches of `F1`, `F2`, `christoffel` -/

namespace Xmps.Cache

variable {V I J : Type}

/-- Reads two site numbers up to 10 back from the concatenation of their decimals. -/
def decode (l : List Char) : ℕ × ℕ :=
  (((List.range 11).flatMap fun i => (List.range 11).map fun j => (i, j)).find? fun p => str p.1 ++ str p.2 == l).getD (0, 0)

theorem decode_key : ∀ i < 11, ∀ j < 11, decode (str i ++ str j) = (i, j) := by decide +kernel

/-- Keys of pairs of sites of a chain of at most 11 sites are different for different pairs. -/
theorem key_inj {i j k l : ℕ} (hi : i < 11) (hj : j < 11) (hk : k < 11) (hl : l < 11)
    (h : str i ++ str j = str k ++ str l) : i = k ∧ j = l := by
  have h1 := decode_key i hi j hj
  rw [h, decode_key k hk l hl] at h1
  simp only [Prod.mk.injEq] at h1
  exact ⟨h1.1.symm, h1.2.symm⟩

theorem str_inj : ∀ i j, str i = str j → i = j := by
  intro i j h
  have := congrArg (fun l => Nat.ofDigitChars 10 l 0) h
  simpa [str] using this

/-- The state holds only correct entries for sites below `N`. -/
structure Good (B : Body V I J) (N : ℕ) (st : St V I J) : Prop where
  iOk : ∀ key v, st.iMem.lookup key = some v → ∃ i, key = str i ∧ v = B.iProp i
  jOk : ∀ key v, st.jMem.lookup key = some v → ∃ j, key = str j ∧ v = B.jProp j
  totOk : ∀ key v, st.tot.lookup key = some v → ∃ i j, i < N ∧ j < N ∧ key = str i ++ str j ∧ v = fresh B i j

theorem memo_ok {α : Type} {mem : Dict α} {f : ℕ → α} (h : ∀ key v, mem.lookup key = some v → ∃ i, key = str i ∧ v = f i) (i : ℕ) :
    (memo mem (str i) (f i)).1 = f i ∧
      ∀ key v, (memo mem (str i) (f i)).2.lookup key = some v → ∃ i, key = str i ∧ v = f i := by
  unfold memo
  cases hm : mem.lookup (str i) with
  | some a =>
    obtain ⟨i', e, rfl⟩ := h _ _ hm
    exact ⟨by rw [str_inj _ _ e], h⟩
  | none =>
    refine ⟨rfl, fun key v hk => ?_⟩
    simp only [List.lookup_cons] at hk
    by_cases e : key == str i
    · simp only [e] at hk
      exact ⟨i, by simpa using e, by simpa using hk.symm⟩
    · simp only [e] at hk
      exact h _ _ hk

theorem fresh_flip (B : Body V I J) (hf : ∀ v, B.flip (B.flip v) = v) {i j : ℕ} (h : i ≠ j) :
    B.flip (fresh B j i) = fresh B i j := by
  unfold fresh
  by_cases h1 : j < i
  · rw [if_neg (by omega), if_pos h1]
  · rw [if_pos (by omega), if_neg h1, hf]

theorem compute_good (B : Body V I J) {N : ℕ} {st : St V I J} (hg : Good B N st) {i j : ℕ} (hi : i < N) (hj : j < N) :
    (compute B st i j).1 = fresh B i j ∧ (compute B st i j).2.id = st.id ∧ Good B N (compute B st i j).2 := by
  have main : ∀ i' j', (if j < i then j else i) = i' → (if j < i then i else j) = j' →
      (if j < i then B.flip (B.tensor i' j' (B.iProp i') (B.jProp j')) else B.tensor i' j' (B.iProp i') (B.jProp j')) = fresh B i j := by
    rintro i' j' rfl rfl
    unfold fresh
    by_cases h : j < i <;> simp [h]
  unfold compute
  generalize hi' : (if j < i then j else i) = i'
  generalize hj' : (if j < i then i else j) = j'
  obtain ⟨m1, m2⟩ := memo_ok hg.iOk i'
  obtain ⟨n1, n2⟩ := memo_ok hg.jOk j'
  simp only [m1, n1, main i' j' hi' hj']
  refine ⟨trivial, trivial, m2, n2, fun key v hk => ?_⟩
  simp only [List.lookup_cons] at hk
  by_cases e : key == str i ++ str j
  · simp only [e] at hk
    exact ⟨i, j, hi, hj, by simpa using e, by simpa using hk.symm⟩
  · simp only [e] at hk
    exact hg.totOk _ _ hk

theorem F1_good (B : Body V I J) (hf : ∀ v, B.flip (B.flip v) = v) {N : ℕ} (hN : N ≤ 11) {st : St V I J} (id : ℕ)
    (hg : st.id = id → Good B N st) {i j : ℕ} (hi : i < N) (hj : j < N) :
    (F1 B st id i j).1 = fresh B i j ∧ (F1 B st id i j).2.id = id ∧ Good B N (F1 B st id i j).2 := by
  unfold F1
  by_cases h : st.id = id
  · have hg := hg h
    rw [if_neg (by simpa using h)]
    cases h1 : st.tot.lookup (str i ++ str j) with
    | some v =>
      obtain ⟨i', j', hi', hj', e, rfl⟩ := hg.totOk _ _ h1
      obtain ⟨rfl, rfl⟩ := key_inj (by omega) (by omega) (by omega) (by omega) e
      exact ⟨rfl, h, hg⟩
    | none =>
      cases h2 : st.tot.lookup (str j ++ str i) with
      | some v =>
        obtain ⟨j', i', hj', hi', e, rfl⟩ := hg.totOk _ _ h2
        obtain ⟨rfl, rfl⟩ := key_inj (by omega) (by omega) (by omega) (by omega) e
        have hne : i ≠ j := by
          rintro rfl
          rw [h1] at h2
          cases h2
        exact ⟨fresh_flip B hf hne, h, hg⟩
      | none =>
        have := compute_good B hg hi hj
        exact ⟨this.1, this.2.1.trans h, this.2.2⟩
  · rw [if_pos h]
    exact compute_good B (st := { id := id, iMem := [], jMem := [], tot := [] }) ⟨by simp, by simp, by simp⟩ hi hj

/-- **C34**: for a chain of at most 11 sites, every sequence of requests with one new `id` returns the
freshly computed tensors, whatever the object cached before. -/
theorem run_fresh (B : Body V I J) (hf : ∀ v, B.flip (B.flip v) = v) {N : ℕ} (hN : N ≤ 11) (st : St V I J) (id : ℕ) (hid : st.id ≠ id)
    (reqs : List (ℕ × ℕ)) (hr : ∀ p ∈ reqs, p.1 < N ∧ p.2 < N) :
    run B id st reqs = reqs.map fun p => fresh B p.1 p.2 := by
  have : ∀ (reqs : List (ℕ × ℕ)) (st : St V I J), (st.id = id → Good B N st) → (∀ p ∈ reqs, p.1 < N ∧ p.2 < N) →
      run B id st reqs = reqs.map fun p => fresh B p.1 p.2 := by
    intro reqs
    induction reqs with
    | nil => intro st _ _; rfl
    | cons p reqs ih =>
      intro st hg hr
      obtain ⟨h1, h2, h3⟩ := F1_good B hf hN id hg (hr p (by simp)).1 (hr p (by simp)).2
      rw [run, h1, ih _ (fun _ => h3) (fun q hq => hr q (by simp [hq]))]
      rfl
  exact this reqs st (fun h => absurd h hid) hr

/-- A test body: the tensor records its sites, the exchange swaps them. -/
def exBody : Body (ℕ × ℕ) Unit Unit := ⟨fun _ => (), fun _ => (), fun i j _ _ => (i, j), Prod.swap⟩

/-- **C34** (violated from 12 sites on): the keys of the pairs (1, 11) and (11, 1) are equal, so the second
request returns the tensor of the first instead of its exchange. -/
theorem run_collision : run exBody 1 ⟨0, [], [], []⟩ [(1, 11), (11, 1)] = [(1, 11), (1, 11)] ∧
    [(1, 11), (11, 1)].map (fun p : ℕ × ℕ => fresh exBody p.1 p.2) = [(1, 11), (11, 1)] := by
  constructor <;> decide +kernel

/-- **C34** (violated from 12 sites on): pairs of different sites collide too. -/
theorem run_collision' : run exBody 1 ⟨0, [], [], []⟩ [(1, 10), (11, 0)] = [(1, 10), (1, 10)] ∧
    fresh exBody 11 0 ≠ (1, 10) := by
  constructor <;> decide +kernel

example := run_fresh exBody (fun _ => rfl) (le_refl 11) ⟨0, [], [], []⟩ 1 (by decide) [(0, 10), (10, 0), (3, 3), (10, 1), (1, 10)] (by decide)

/-- **C34** (violated): with a contracted last index a repeated request to `christoffel` returns the cached tensor
without the final change of basis. -/
theorem christoffel_cached (gamma : ℕ → ℕ → ℕ → V) (ungauge : ℕ → ℕ → V → V) (flip : V → V) (st : ChSt V) (id i j k : ℕ)
    (hid : st.id ≠ id) :
    let r := christoffel gamma ungauge flip st id i j k
    r.1 = ungauge i j (gamma i j k) ∧ (christoffel gamma ungauge flip r.2 id i j k).1 = gamma i j k := by
  simp [christoffel, hid]

/-- **C34** (violated from 11 sites on): triples collide, `(10, 1, 0)` and `(1, 0, 10)`. -/
theorem christoffel_collision :
    let r := christoffel (fun i j k => [i, j, k]) (fun _ _ v => v) id ⟨0, []⟩ 1 10 1 0
    (christoffel (fun i j k => [i, j, k]) (fun _ _ v => v) id r.2 1 1 0 10).1 = [10, 1, 0] := by
  decide +kernel

end Xmps.Cache

namespace Xmps

variable {K : Type}

/-- `c(tra(G, [2, 3, 0, 1]))`, the exchange used by `F1`. -/
def flipF1 [Star K] (G : ND K) : ND K := (G.transposeR [2, 3, 0, 1]).conj
/-- `tra(G, [2, 3, 0, 1])`, the exchange used by `F2`. -/
def flipF2 (G : ND K) : ND K := G.transposeR [2, 3, 0, 1]

/-- The exchanges are involutions (the hypothesis of `run_fresh`) on arrays of rank 4. -/
theorem flipF1_flipF1 [InvolutiveStar K] {G : ND K} {a b c d : ℕ} (h : G.shape = [a, b, c, d]) : flipF1 (flipF1 G) ≈ G := by
  refine ⟨by simp [flipF1, ND.transposeR, ND.dim, h], fun idx hi => ?_⟩
  have hs : (flipF1 (flipF1 G)).shape = [a, b, c, d] := by simp [flipF1, ND.transposeR, ND.dim, h]
  rw [hs] at hi
  match idx, hi with
  | [i, j, k, l], _ => simp [flipF1, ND.transposeR, ND.rank, h, List.range_succ]

theorem flipF2_flipF2 {G : ND K} {a b c d : ℕ} (h : G.shape = [a, b, c, d]) : flipF2 (flipF2 G) ≈ G := by
  refine ⟨by simp [flipF2, ND.transposeR, ND.dim, h], fun idx hi => ?_⟩
  have hs : (flipF2 (flipF2 G)).shape = [a, b, c, d] := by simp [flipF2, ND.transposeR, ND.dim, h]
  rw [hs] at hi
  match idx, hi with
  | [i, j, k, l], _ => simp [flipF2, ND.transposeR, ND.rank, h, List.range_succ]

end Xmps
