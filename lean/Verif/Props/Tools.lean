import Verif.Model.TensorTools

/-! # Properties C07 (`loc`, `split_up`), C25 (`factors`), C43 (`sympmat`, `changebasis`) -/

namespace Xmps

open Finset

variable {K : Type}

/-! ### C25 -/

theorem factors_go {n : ℕ} (hn : 0 < n) : ∀ m, 0 < m →
    ∃ i, 1 ≤ i ∧ i ≤ m ∧ i ∣ n ∧ factors.go n m = .ok (i, n / i) ∧ ∀ j, j ∣ n → j ≤ m → j ≤ i
  | m + 1, _ => by
    by_cases h : n % (m + 1) = 0
    · exact ⟨m + 1, by omega, le_refl _, Nat.dvd_of_mod_eq_zero h, by simp [factors.go, h], fun j _ hj => hj⟩
    · have hm : 0 < m := by
        rcases Nat.eq_zero_or_pos m with rfl | hm
        · exact absurd (Nat.mod_one n) h
        · exact hm
      obtain ⟨i, h1, h2, h3, h4, h5⟩ := factors_go hn m hm
      refine ⟨i, h1, by omega, h3, by simp [factors.go, h, h4], fun j hj hjm => ?_⟩
      rcases Nat.lt_or_ge j (m + 1) with hlt | hge
      · exact h5 j hj (by omega)
      · have : j = m + 1 := by omega
        subst this
        exact absurd (Nat.mod_eq_zero_of_dvd hj) h

/-- **C25**: `factors(n)` returns `[a, b]` with `a * b = n`, and no other factorisation is more even. -/
theorem factors_even {n : ℕ} (hn : 1 ≤ n) :
    ∃ a b, factors n = .ok (a, b) ∧ a * b = n ∧
      ∀ c e : ℕ, c * e = n → |(a : ℤ) - b| ≤ |(c : ℤ) - e| := by
  obtain ⟨i, h1, h2, h3, h4, h5⟩ := factors_go hn (Nat.sqrt n + 1) (by omega)
  obtain ⟨b, rfl⟩ := h3
  have hb : i * b / i = b := Nat.mul_div_cancel_left b (by omega)
  rw [hb] at h4
  refine ⟨i, b, h4, rfl, ?_⟩
  set s := Nat.sqrt (i * b) with hs
  have hs1 : s * s ≤ i * b := Nat.sqrt_le _
  have hs2 : i * b < (s + 1) * (s + 1) := Nat.lt_succ_sqrt _
  have key : ∀ c e : ℕ, c * e = i * b → c ≤ e → |(i : ℤ) - b| ≤ (e : ℤ) - c := by
    intro c e hce hle
    have hcs : c ≤ s := by
      by_contra hlt
      have : (s + 1) * (s + 1) ≤ c * e := Nat.mul_le_mul (by omega) (by omega)
      omega
    have hci : c ≤ i := h5 c ⟨e, hce.symm⟩ (by omega)
    have hc0 : 0 < c := by
      rcases Nat.eq_zero_or_pos c with rfl | h
      · rw [Nat.zero_mul] at hce; omega
      · exact h
    have hbe : b ≤ e := by
      by_contra hlt
      have : c * e < i * b := by
        calc c * e ≤ i * e := Nat.mul_le_mul_right _ hci
          _ < i * b := Nat.mul_lt_mul_of_pos_left (by omega) (by omega)
      omega
    rcases Nat.lt_or_ge s i with hlt | hge
    · -- i = s + 1, b = s
      have hi : i = s + 1 := by omega
      have hbs : b ≤ s := by
        by_contra hb'
        have : (s + 1) * (s + 1) ≤ i * b := Nat.mul_le_mul (by omega) (by omega)
        omega
      have hbs' : s ≤ b := by
        by_contra hb'
        have h1 : b + 1 ≤ s := by omega
        have : (s + 1) * b < s * s := by nlinarith
        rw [hi] at hs1
        omega
      have hbs2 : b = s := by omega
      have hne : c ≠ e := by
        rintro rfl
        have h6 : c * c = (s + 1) * s := by rw [hce, hi, hbs2]
        have : c * c ≤ s * s := Nat.mul_le_mul hcs hcs
        have hs0 : 0 < s := by
          rcases Nat.eq_zero_or_pos s with h0 | h0
          · rw [h0] at h6; simp at h6; omega
          · exact h0
        nlinarith
      rw [abs_le]
      constructor <;> push_cast [hi, hbs2] <;> omega
    · have hib : i ≤ b := by
        by_contra hb'
        have : i * b < s * s := by
          calc i * b < i * i := Nat.mul_lt_mul_of_pos_left (by omega) (by omega)
            _ ≤ s * s := Nat.mul_le_mul hge hge
        omega
      rw [abs_le]
      constructor <;> omega
  intro c e hce
  rcases Nat.le_total c e with hle | hle
  · have := key c e hce hle
    rw [abs_sub_comm (c : ℤ), abs_of_nonneg (by omega : (0 : ℤ) ≤ (e : ℤ) - c)]
    exact this
  · have := key e c (by rw [mul_comm]; exact hce) hle
    rw [abs_of_nonneg (by omega : (0 : ℤ) ≤ (c : ℤ) - e)]
    exact this

/-- **C25**: two equal local dimensions are recovered from their product. -/
theorem factors_square {d : ℕ} (hd : 1 ≤ d) : factors (d * d) = .ok (d, d) := by
  obtain ⟨a, b, h, hab, hmin⟩ := factors_even (n := d * d) (Nat.mul_le_mul hd hd)
  have := hmin d d rfl
  simp only [sub_self, abs_zero, abs_nonpos_iff] at this
  have e : a = b := by omega
  subst e
  have : a = d := Nat.mul_self_inj.1 hab
  rw [h, this]

/-- The first factor is the larger one when they are neighbours: `factors(6) = [3, 2]`, so local
dimensions `(2, 3)` are not recovered from their product. -/
theorem factors_not_recovered : ∃ d1 d2 : ℕ, factors (d1 * d2) ≠ .ok (d1, d2) :=
  ⟨2, 3, by
    have : Nat.sqrt 6 = 2 := (Nat.eq_sqrt.2 (by omega)).symm
    simp [factors, this, factors.go]⟩

example : factors 12 = .ok (4, 3) := by
  have : Nat.sqrt 12 = 3 := (Nat.eq_sqrt.2 (by omega)).symm
  simp [factors, this, factors.go]

/-! ### C07 -/

/-- **C07**: `kron(A, B)[loc(st, uv, d)] = A[st] * B[uv]`; `B` is `p x q` and `loc` gets `p, q`. -/
theorem kron_loc [Mul K] {A B : ND K} {m n p q : ℕ} (hA : A.shape = [m, n]) (hB : B.shape = [p, q])
    {r s v w : ℕ} (hr : r < m) (hs : s < n) (hv : v < p) (hw : w < q) :
    ∃ i j, loc (r, s) (v, w) none (some p) (some q) = .ok (i, j) ∧
      (kron A B).get2 i j = .ok (A.val [r, s] * B.val [v, w]) := by
  refine ⟨p * r + v, q * s + w, rfl, ?_⟩
  have e1 : (p * r + v) / p = r := by
    rw [Nat.mul_add_div (by omega), Nat.div_eq_of_lt hv, Nat.add_zero]
  have e2 : (q * s + w) / q = s := by
    rw [Nat.mul_add_div (by omega), Nat.div_eq_of_lt hw, Nat.add_zero]
  have e3 : (p * r + v) % p = v := by rw [Nat.mul_add_mod, Nat.mod_eq_of_lt hv]
  have e4 : (q * s + w) % q = w := by rw [Nat.mul_add_mod, Nat.mod_eq_of_lt hw]
  have b1 : p * r + v < m * p := by nlinarith
  have b2 : q * s + w < n * q := by nlinarith
  simp [ND.get2, kron, ND.dim, hA, hB, e1, e2, e3, e4, b1, b2]

/-- `loc` with `d` is `loc` with `p = q = d`. -/
theorem loc_d (st uv : ℕ × ℕ) (d : ℕ) (p q : Option ℕ) : loc st uv (some d) p q = loc st uv none (some d) (some d) := rfl

/-- `loc` without dimensions raises. -/
theorem loc_none (st uv : ℕ × ℕ) : loc st uv none none none = .error .exception := rfl

/-- **C07**: `split_up(H, d)` has entry `[k,i,l,j]` equal to `H[d*i+k, d*j+l]`, so for a Kronecker
product `A[i,j] * B[k,l]`. -/
theorem splitUp_kron [MulZeroClass K] {A B : ND K} {d : ℕ} (hA : A.shape = [d, d]) (hB : B.shape = [d, d]) :
    ∃ R, splitUp (kron A B) (some d) none none = .ok R ∧ R.shape = [d, d, d, d] ∧
      ∀ k i l j, k < d → i < d → l < d → j < d → R.val [k, i, l, j] = A.val [i, j] * B.val [k, l] := by
  obtain ⟨h, hh, hs, hv⟩ := ND.build_ok (sh := [d, d, d, d]) (f := fun idx => do
      let (r, c) ← loc (idx.getD 0 0, idx.getD 1 0) (idx.getD 2 0, idx.getD 3 0) none (some d) (some d)
      (kron A B).get2 r c) (g := fun idx => A.val [idx.getD 0 0, idx.getD 1 0] * B.val [idx.getD 2 0, idx.getD 3 0]) (by
    intro idx hi
    match idx, hi with
    | [i, j, k, l], hi =>
      obtain ⟨r, c, h1, h2⟩ := kron_loc hA hB (r := i) (s := j) (v := k) (w := l) hi.1 hi.2.1 hi.2.2.1 hi.2.2.2.1
      simp only [List.getD_cons_zero, List.getD_cons_succ, h1, ok_bind, h2])
  refine ⟨h.transposeR [2, 0, 3, 1], ?_, by simp [ND.dim, hs], fun k i l j hk hi hl hj => ?_⟩
  · unfold splitUp
    simp only [hh, ok_bind]
    exact ND.transpose_ok (by rw [ND.rank, hs]; exact (by decide : [2, 0, 3, 1].Perm (List.range 4)))
  · have : (h.transposeR [2, 0, 3, 1]).val [k, i, l, j] = h.val [i, j, k, l] := by
      simp [ND.transposeR, ND.rank, hs, List.range_succ]
    rw [this, hv [i, j, k, l] ⟨hi, hj, hk, hl, trivial⟩]
    rfl

/-- **C07 is violated for rectangular blocks**: `split_up` with `d=None` never returns. -/
theorem splitUp_rectangular_raises [Zero K] (H : ND K) (p q : ℕ) : splitUp H none (some p) (some q) = .error .typeError := rfl

/-- `split_up_3` for `d = 2`: the entry `[i,j,k,l,m,n]` of the threefold product is
`A[i,j] * C[k,l] * B[m,n]` (second and third factor exchanged). -/
theorem splitUp3_kron [CommSemiring K] {A B C : ND K} (hA : A.shape = [2, 2]) (hB : B.shape = [2, 2])
    (hC : C.shape = [2, 2]) :
    ∃ R, splitUp3 (kron (kron A B) C) 2 = .ok R ∧ R.shape = [2, 2, 2, 2, 2, 2] ∧
      ∀ i j k l m n, i < 2 → j < 2 → k < 2 → l < 2 → m < 2 → n < 2 →
        R.val [i, j, k, l, m, n] = A.val [i, j] * B.val [m, n] * C.val [k, l] := by
  have hAB : (kron A B).shape = [4, 4] := by simp [kron, ND.dim, hA, hB]
  obtain ⟨R, hR, hs, hv⟩ := ND.build_ok (sh := [2, 2, 2, 2, 2, 2]) (f := fun idx =>
      let l := loc3 (idx.getD 0 0, idx.getD 1 0) (idx.getD 2 0, idx.getD 3 0) (idx.getD 4 0, idx.getD 5 0) 2
      (kron (kron A B) C).get2 l.1 l.2)
    (g := fun idx => A.val [idx.getD 0 0, idx.getD 1 0] * B.val [idx.getD 4 0, idx.getD 5 0] * C.val [idx.getD 2 0, idx.getD 3 0]) (by
    intro idx hi
    match idx, hi with
    | [i, j, k, l, m, n], hi =>
      obtain ⟨h1, h2, h3, h4, h5, h6, _⟩ := hi
      obtain ⟨r, c, g1, g2⟩ := kron_loc hA hB (r := i) (s := j) (v := m) (w := n) h1 h2 h5 h6
      have er : r = 2 * i + m := by simp [loc] at g1; omega
      have ec : c = 2 * j + n := by simp [loc] at g1; omega
      obtain ⟨r', c', g3, g4⟩ := kron_loc hAB hC (r := r) (s := c) (v := k) (w := l) (by omega) (by omega) h3 h4
      have er' : r' = 2 * r + k := by simp [loc] at g3; omega
      have ec' : c' = 2 * c + l := by simp [loc] at g3; omega
      have gv : (kron A B).val [r, c] = A.val [i, j] * B.val [m, n] := by
        have hr : r < 4 := by omega
        have hc : c < 4 := by omega
        simpa [ND.get2, hAB, hr, hc] using g2
      rw [gv] at g4
      simp only [List.getD_cons_zero, List.getD_cons_succ, loc3]
      have e1 : 2 ^ 2 * i + 2 * m + k = r' := by omega
      have e2 : 2 ^ 2 * j + 2 * n + l = c' := by omega
      rw [e1, e2]
      exact g4)
  exact ⟨R, hR, hs, fun i j k l m n h1 h2 h3 h4 h5 h6 => hv [i, j, k, l, m, n] ⟨h1, h2, h3, h4, h5, h6, trivial⟩⟩

/-- `split_up_3` for `d = 3` reads other entries than those of the Kronecker product. -/
theorem splitUp3_wrong : ∃ (A : ND ℤ) (R : ND ℤ), A.shape = [3, 3] ∧ splitUp3 (kron (kron A A) A) 3 = .ok R ∧
    R.val [1, 0, 0, 0, 0, 0] ≠ A.val [1, 0] * A.val [0, 0] * A.val [0, 0] := by
  let A : ND ℤ := ⟨[3, 3], fun idx => if idx = [0, 0] then 1 else if idx = [1, 0] then 5 else 0⟩
  obtain ⟨R, hR, hs, hv⟩ := ND.build_ok (sh := [3, 3, 3, 3, 3, 3]) (f := fun idx =>
      let l := loc3 (idx.getD 0 0, idx.getD 1 0) (idx.getD 2 0, idx.getD 3 0) (idx.getD 4 0, idx.getD 5 0) 2
      (kron (kron A A) A).get2 l.1 l.2)
    (g := fun idx =>
      let l := loc3 (idx.getD 0 0, idx.getD 1 0) (idx.getD 2 0, idx.getD 3 0) (idx.getD 4 0, idx.getD 5 0) 2
      (kron (kron A A) A).val [l.1, l.2]) (by
    intro idx hi
    match idx, hi with
    | [i, j, k, l, m, n], hi =>
      obtain ⟨h1, h2, h3, h4, h5, h6, _⟩ := hi
      have hsh : (kron (kron A A) A).shape = [27, 27] := rfl
      simp only [List.getD_cons_zero, List.getD_cons_succ, loc3, ND.get2, hsh]
      rw [if_pos (by constructor <;> omega)])
  refine ⟨A, R, rfl, hR, ?_⟩
  rw [hv [1, 0, 0, 0, 0, 0] (by simp)]
  simp [loc3, kron, A, ND.dim]

/-! ### C43 -/

theorem sympmat_val [Zero K] [One K] [Neg K] (N : ℕ) {i j : ℕ} (hi : i < 2 * N) (hj : j < 2 * N) :
    (sympmat N : ND K).val [i, j] = if j = i + N then 1 else if i = j + N then -1 else 0 := by
  simp only [sympmat]
  split_ifs <;> first | rfl | omega

/-- **C43**: `sympmat(N) @ sympmat(N)` is minus the identity. -/
theorem sympmat_sq [Ring K] (N : ℕ) {i j : ℕ} (hi : i < 2 * N) (hj : j < 2 * N) :
    ∑ k ∈ range (2 * N), (sympmat N : ND K).val [i, k] * (sympmat N).val [k, j] = if i = j then -1 else 0 := by
  rcases Nat.lt_or_ge i N with h | h
  · rw [Finset.sum_eq_single (i + N)]
    · rw [sympmat_val N hi (by omega), sympmat_val N (by omega) hj]
      split_ifs <;> first | omega | simp
    · intro k hk hne
      have hk := Finset.mem_range.1 hk
      rw [sympmat_val N hi hk, if_neg hne, if_neg (by omega), zero_mul]
    · intro hh; simp at hh; omega
  · rw [Finset.sum_eq_single (i - N)]
    · rw [sympmat_val N hi (by omega), sympmat_val N (by omega) hj]
      split_ifs <;> first | omega | simp
    · intro k hk hne
      have hk := Finset.mem_range.1 hk
      rw [sympmat_val N hi hk, if_neg (by omega), if_neg (by omega), zero_mul]
    · intro hh; simp at hh; omega

/-- **C43**: `sympmat(N).T = -sympmat(N)`; with `sympmat_sq` it is orthogonal. -/
theorem sympmat_transpose [Ring K] (N : ℕ) {i j : ℕ} (hi : i < 2 * N) (hj : j < 2 * N) :
    (sympmat N : ND K).val [j, i] = - (sympmat N).val [i, j] := by
  rw [sympmat_val N hi hj, sympmat_val N hj hi]
  split_ifs <;> first | omega | simp

/-- **C43**: `sympmat(N) @ sympmat(N).T` is the identity. -/
theorem sympmat_orthogonal [Ring K] (N : ℕ) {i j : ℕ} (hi : i < 2 * N) (hj : j < 2 * N) :
    ∑ k ∈ range (2 * N), (sympmat N : ND K).val [i, k] * (sympmat N).val [j, k] = if i = j then 1 else 0 := by
  have : ∀ k ∈ range (2 * N), (sympmat N : ND K).val [i, k] * (sympmat N).val [j, k] =
      - ((sympmat N : ND K).val [i, k] * (sympmat N).val [k, j]) := by
    intro k hk
    rw [sympmat_transpose N (Finset.mem_range.1 hk) hj, mul_neg]
  rw [Finset.sum_congr rfl this, Finset.sum_neg_distrib, sympmat_sq N hi hj]
  split_ifs <;> simp

theorem changebasis_fold [Zero K] [One K] (n : ℕ) : ∀ k, k ≤ n →
    ((List.range k).foldl (fun (m : ND K) i => (m.set2 (2 * i) i 1).set2 (2 * i + 1) (i + n) 1)
      (zerosND [2 * n, 2 * n])).shape = [2 * n, 2 * n] ∧
    ∀ a j, ((List.range k).foldl (fun (m : ND K) i => (m.set2 (2 * i) i 1).set2 (2 * i + 1) (i + n) 1)
      (zerosND [2 * n, 2 * n])).val [a, j] = if a < 2 * k ∧ j = a / 2 + a % 2 * n then 1 else 0
  | 0, _ => by simp [zerosND]
  | k + 1, h => by
    obtain ⟨h1, h2⟩ := changebasis_fold n k (by omega)
    rw [List.range_succ, List.foldl_append]
    simp only [List.foldl_cons, List.foldl_nil]
    generalize (List.range k).foldl (fun (m : ND K) i => (m.set2 (2 * i) i 1).set2 (2 * i + 1) (i + n) 1)
      (zerosND [2 * n, 2 * n]) = M at h1 h2 ⊢
    refine ⟨h1, fun a j => ?_⟩
    simp only [ND.set2, List.cons.injEq, and_true, h2]
    by_cases e1 : a = 2 * k + 1
    · subst e1
      have q1 : (2 * k + 1) / 2 = k := by omega
      have q2 : (2 * k + 1) % 2 = 1 := by omega
      rw [q1, q2]
      by_cases e2 : j = k + n
      · subst e2; simp; omega
      · simp [e2]
    · by_cases e3 : a = 2 * k
      · subst e3
        have q1 : (2 * k) / 2 = k := by omega
        have q2 : (2 * k) % 2 = 0 := by omega
        rw [q1, q2]
        by_cases e2 : j = k
        · subst e2; simp
        · simp [e2]
      · have : (a < 2 * (k + 1)) ↔ (a < 2 * k) := by omega
        simp [e1, e3, this]

/-- **C43**: row `a` of `changebasis(n)` is the unit vector at position `a/2 + (a mod 2) n`:
`(x_1..x_n,p_1..p_n) -> (x_1,p_1,..,x_n,p_n)`. -/
theorem changebasis_perm [Zero K] [One K] (n : ℕ) :
    (changebasis n : ND K).shape = [2 * n, 2 * n] ∧
    (∀ a < 2 * n, ∀ j, (changebasis n : ND K).val [a, j] = if j = a / 2 + a % 2 * n then 1 else 0) ∧
    (∀ a < 2 * n, a / 2 + a % 2 * n < 2 * n) ∧
    ∀ j < 2 * n, ∃! a, a < 2 * n ∧ a / 2 + a % 2 * n = j := by
  obtain ⟨h1, h2⟩ := changebasis_fold (K := K) n n (le_refl n)
  have hdm : ∀ a, a % 2 = 0 ∨ a % 2 = 1 := by omega
  refine ⟨h1, fun a ha j => by rw [changebasis, h2]; simp [ha], fun a ha => ?_, fun j hj => ?_⟩
  · rcases hdm a with h | h <;> rw [h] <;> omega
  · rcases Nat.lt_or_ge j n with h | h
    · refine ⟨2 * j, ⟨by omega, ?_⟩, ?_⟩
      · have : 2 * j % 2 = 0 := by omega
        rw [this]; omega
      · rintro b ⟨hb, he⟩
        rcases hdm b with h' | h' <;> rw [h'] at he <;> omega
    · refine ⟨2 * (j - n) + 1, ⟨by omega, ?_⟩, ?_⟩
      · have : (2 * (j - n) + 1) % 2 = 1 := by omega
        rw [this]; omega
      · rintro b ⟨hb, he⟩
        rcases hdm b with h' | h' <;> rw [h'] at he <;> omega

/-- **C43**: `changebasis(n) @ sympmat(n) @ changebasis(n).T` is block diagonal with blocks `[[0,1],[-1,0]]`. -/
theorem changebasis_sympmat [Ring K] (n : ℕ) {a b : ℕ} (ha : a < 2 * n) (hb : b < 2 * n) :
    ∑ i ∈ range (2 * n), ∑ j ∈ range (2 * n),
      (changebasis n : ND K).val [a, i] * (sympmat n).val [i, j] * (changebasis n).val [b, j] =
    if a / 2 = b / 2 then (if a < b then 1 else if b < a then -1 else 0) else 0 := by
  obtain ⟨_, h2, h3, _⟩ := changebasis_perm (K := K) n
  have : ∀ i ∈ range (2 * n), ∑ j ∈ range (2 * n),
      (changebasis n : ND K).val [a, i] * (sympmat n).val [i, j] * (changebasis n).val [b, j] =
      if i = a / 2 + a % 2 * n then (sympmat n).val [i, b / 2 + b % 2 * n] else 0 := by
    intro i _
    simp only [h2 a ha, h2 b hb, ite_mul, one_mul, zero_mul, mul_ite, mul_one, mul_zero]
    rw [Finset.sum_ite_eq']
    simp [h3 b hb]
  rw [Finset.sum_congr rfl this, Finset.sum_ite_eq']
  simp only [Finset.mem_range, h3 a ha, if_true]
  rw [sympmat_val n (h3 a ha) (h3 b hb)]
  have hdm : ∀ a, a % 2 = 0 ∨ a % 2 = 1 := by omega
  rcases hdm a with h | h <;> rcases hdm b with h' | h' <;> rw [h, h'] <;> split_ifs <;> first | omega | rfl

example : (sympmat 1 : ND ℤ).val [0, 1] = 1 ∧ (sympmat 1 : ND ℤ).val [1, 0] = -1 := by decide

end Xmps
