import Mathlib.Tactic.IntervalCases
import Verif.Props.Trajectory

/-! # Property C47: the run directories chosen by `Trajectory.stop` -/

namespace Xmps.Tdvp

/-- The name of run number `n`. -/
def runName (run : List Char) (n : ℕ) : List Char := run ++ '_' :: Nat.toDigits 10 n

/-- **C47**: a directory that `stop` creates did not exist. -/
theorem stopDir_fresh {dirs : List (List Char)} {run name : List Char} {dirs' : List (List Char)}
    (h : stopDir dirs run = .ok (name, dirs')) : name ∉ dirs ∧ dirs' = dirs ++ [name] := by
  unfold stopDir at h
  have key : ∀ n : List Char, (do guardPy (n ∉ dirs) .fileExists; (.ok (n, dirs ++ [n]) : Py (List Char × List (List Char)))) = .ok (name, dirs') →
      name ∉ dirs ∧ dirs' = dirs ++ [name] := by
    intro n h
    by_cases hn : n ∈ dirs
    · simp [guardPy, hn] at h
    · simp only [hn, not_false_eq_true, decide_true, guardPy_true, ok_bind, Except.ok.injEq, Prod.mk.injEq] at h
      obtain ⟨rfl, rfl⟩ := h
      exact ⟨hn, rfl⟩
  simp only [] at h
  split at h
  · exact key _ h
  · obtain ⟨ns, -, h⟩ := bind_eq_ok h
    obtain ⟨n, -, h⟩ := bind_eq_ok h
    exact key _ h

theorem dropLast2_name (run : List Char) (c : Char) : dropLast2 (run ++ ['_', c]) = run := by
  have : run ++ ['_', c] = (run ++ ['_']) ++ [c] := by simp
  rw [dropLast2, this, List.dropLast_concat, List.dropLast_concat]

theorem last_name (run : List Char) (c : Char) : pyGetI (run ++ ['_', c]) (-1) = .ok c := by
  have : run ++ ['_', c] = (run ++ ['_']) ++ [c] := by simp
  rw [this]
  exact pyLast_append _ _

theorem last_name2 (run : List Char) (b c : Char) : pyGetI (run ++ ['_', b, c]) (-1) = .ok c := by
  have : run ++ ['_', b, c] = (run ++ ['_', b]) ++ [c] := by simp
  rw [this]
  exact pyLast_append _ _

/-- The listing after `k` runs. -/
def after (dirs : List (List Char)) (run : List Char) (k : ℕ) : List (List Char) := dirs ++ (List.range k).map fun i => runName run (i + 1)

theorem filter_after {dirs : List (List Char)} {run : List Char} (hd : ∀ x ∈ dirs, ¬ (run ++ ['_']) <+: x) (k : ℕ) :
    (after dirs run k).filter (fun x => (run ++ ['_']).isPrefixOf x) = (List.range k).map fun i => runName run (i + 1) := by
  unfold after
  rw [List.filter_append, List.filter_eq_nil_iff.2 (fun x hx => by simpa using hd x hx), List.nil_append, List.filter_eq_self]
  intro x hx
  obtain ⟨i, -, rfl⟩ := List.mem_map.1 hx
  simp [runName]

/-- **C47**: in a directory without entries `run_*`, run number `k+1` (`k ≤ 9`) goes to `run_{k+1}`. -/
theorem stopDir_next {dirs : List (List Char)} {run : List Char} (hd : ∀ x ∈ dirs, ¬ (run ++ ['_']) <+: x) {k : ℕ} (hk : k ≤ 9) :
    stopDir (after dirs run k) run = .ok (runName run (k + 1), after dirs run (k + 1)) := by
  have hn : runName run (k + 1) ∉ after dirs run k := by
    intro h
    rcases List.mem_append.1 h with h | h
    · exact hd _ h (by simp [runName])
    · obtain ⟨i, hi, e⟩ := List.mem_map.1 h
      have hi := List.mem_range.1 hi
      simp only [runName, List.append_cancel_left_eq, List.cons.injEq, true_and] at e
      have := congrArg (fun l => Nat.ofDigitChars 10 l 0) e
      simp at this
      omega
  have e : after dirs run k ++ [runName run (k + 1)] = after dirs run (k + 1) := by
    simp [after, List.range_succ]
  unfold stopDir
  rw [filter_after hd]
  have hd1 : Nat.toDigits 10 1 = ['1'] := rfl
  have key : ∀ name, name = runName run (k + 1) →
      (do guardPy (name ∉ after dirs run k) .fileExists; (.ok (name, after dirs run k ++ [name]) : Py (List Char × List (List Char)))) =
        .ok (runName run (k + 1), after dirs run (k + 1)) := by
    rintro _ rfl
    simp only [hn, not_false_eq_true, decide_true, guardPy_true, ok_bind, e]
  clear e hn
  by_cases h0 : k = 0
  · subst h0
    simpa using key (run ++ ['_', '1']) rfl
  · have hmem : run ∈ List.map dropLast2 (List.map (fun i => runName run (i + 1)) (List.range k)) :=
      List.mem_map.2 ⟨runName run 1, List.mem_map.2 ⟨0, by simp; omega, rfl⟩, dropLast2_name run '1'⟩
    have hns : (List.map (fun i => runName run (i + 1)) (List.range k)).mapM (fun x => do
        let c ← pyGetI x (-1)
        digit c) = (.ok ((List.range k).map (· + 1)) : Py (List ℕ)) := by
      have : ∀ i < 9, (do
        let c ← pyGetI (runName run (i + 1)) (-1)
        digit c) = (.ok (i + 1) : Py ℕ) := by
        intro i hi
        interval_cases i <;> exact (by rw [runName, show Nat.toDigits 10 _ = [_] from rfl, last_name]; rfl)
      clear key hmem
      have aux : ∀ l : List ℕ, (∀ i ∈ l, i < 9) → (l.map fun i => runName run (i + 1)).mapM (fun x => do
        let c ← pyGetI x (-1)
        digit c) = (.ok (l.map (· + 1)) : Py (List ℕ)) := by
        intro l
        induction l with
        | nil => intro _; rfl
        | cons a l ih =>
          intro h
          rw [List.map_cons, List.mapM_cons, this a (h a (by simp)), ok_bind, ih (fun i hi => h i (by simp [hi]))]
          rfl
      exact aux _ (fun i hi => by have := List.mem_range.1 hi; omega)
    have hmax : maxNat ((List.range k).map (· + 1)) = .ok k := by
      clear key hmem hns
      interval_cases k <;> first | omega | rfl
    simp only [hmem, not_true_eq_false, if_false]
    rw [hns, ok_bind, hmax, ok_bind]
    exact key _ (by simp [runName])

/-- **C47**: in a directory without entries `run_*`, up to ten runs get the names `run_1`, ..., `run_10`. -/
theorem stops_ten {dirs : List (List Char)} {run : List Char} (hd : ∀ x ∈ dirs, ¬ (run ++ ['_']) <+: x) {n : ℕ} (hn : n ≤ 10) :
    stops run n dirs = .ok ((List.range n).map fun i => runName run (i + 1), after dirs run n) := by
  have : ∀ n k, k + n ≤ 10 → stops run n (after dirs run k) = .ok ((List.range n).map fun i => runName run (k + i + 1), after dirs run (k + n)) := by
    intro n
    induction n with
    | zero => intro k _; rfl
    | succ n ih =>
      intro k h
      rw [stops, stopDir_next hd (by omega), ok_bind, ih (k + 1) (by omega), ok_bind, List.range_succ_eq_map]
      simp only [List.map_cons, List.map_map, Except.ok.injEq, Prod.mk.injEq, List.cons.injEq]
      refine ⟨⟨by simp, ?_⟩, by rw [Nat.add_assoc, Nat.add_comm 1]⟩
      apply List.map_congr_left
      intro i _
      show runName run _ = runName run _
      congr 1
      simp only [Nat.succ_eq_add_one]
      omega
  have h := this n 0 (by omega)
  simpa [after] using h

/-- **C47** (violated): the eleventh run raises, because only the last digit of the run number is read. -/
theorem stops_eleven {dirs : List (List Char)} {run : List Char} (hd : ∀ x ∈ dirs, ¬ (run ++ ['_']) <+: x) :
    stops run 11 dirs = .error .fileExists := by
  have h10 : ∀ n dirs r, stops run n dirs = .ok r → stops run (n + 1) dirs = (do
      let q ← stopDir r.2 run
      .ok (r.1 ++ [q.1], q.2)) := by
    intro n
    induction n with
    | zero =>
      intro dirs r h
      cases h
      rw [stops]
      simp only [stops, ok_bind]
      rfl
    | succ n ih =>
      intro dirs r h
      rw [stops] at h
      obtain ⟨q, h1, h⟩ := bind_eq_ok h
      obtain ⟨q', h2, h⟩ := bind_eq_ok h
      cases h
      rw [stops, h1, ok_bind, ih _ _ h2]
      cases stopDir q'.2 run <;> rfl
  rw [h10 10 dirs _ (stops_ten hd (le_refl 10))]
  have : stopDir (after dirs run 10) run = .error .fileExists := by
    unfold stopDir
    rw [filter_after hd]
    have hmem : run ∈ List.map dropLast2 (List.map (fun i => runName run (i + 1)) (List.range 10)) :=
      List.mem_map.2 ⟨runName run 1, List.mem_map.2 ⟨0, by simp, rfl⟩, dropLast2_name run '1'⟩
    simp only [hmem, not_true_eq_false, if_false]
    have hns : (List.map (fun i => runName run (i + 1)) (List.range 10)).mapM (fun x => do
        let c ← pyGetI x (-1)
        digit c) = (.ok [1, 2, 3, 4, 5, 6, 7, 8, 9, 0] : Py (List ℕ)) := by
      show (List.mapM _ [run ++ ['_', '1'], run ++ ['_', '2'], run ++ ['_', '3'], run ++ ['_', '4'], run ++ ['_', '5'], run ++ ['_', '6'],
        run ++ ['_', '7'], run ++ ['_', '8'], run ++ ['_', '9'], run ++ ['_', '1', '0']]) = _
      simp only [List.mapM_cons, List.mapM_nil, last_name, last_name2, ok_bind]
      rfl
    rw [hns, ok_bind, show maxNat [1, 2, 3, 4, 5, 6, 7, 8, 9, 0] = .ok 9 from rfl, ok_bind]
    have : run ++ ['_'] ++ Nat.toDigits 10 (9 + 1) ∈ after dirs run 10 :=
      List.mem_append_right _ (List.mem_map.2 ⟨9, by simp, by simp [runName]⟩)
    rw [ok_bind, decide_eq_false (not_not.2 this)]
    rfl
  rw [this]
  rfl

/-- **C47** (violated): entries of other runs whose name starts with `run_` disturb the numbering, or make `stop` raise. -/
theorem stops_other :
    (stopDir ["r_1".toList, "r_b_7".toList] "r".toList).map Prod.fst = .ok "r_8".toList ∧
    stopDir ["r_1".toList, "r_old".toList] "r".toList = .error .valueError := by
  constructor <;> rfl

example := stops_ten (dirs := ["other_1".toList]) (run := "test".toList) (by decide) (n := 10) (le_refl 10)

end Xmps.Tdvp
