import Verif.Model.PepsIso
import Verif.Props.PepsOverlap

/-!
# The truncations of `isometrise` on a grid
-/

namespace Xmps.FPEPS

open Finset Spec

section

variable {m n : ℕ} {ph : Fin m → Fin n → ℕ} {vE vE' : Fin (m + 1) → Fin n → ℕ} {hE hE' : Fin m → Fin (n + 1) → ℕ}
  {g : Fin m → Fin n → ND ℂ} {x : FPEPS}

/-- the tensors with given extents and the entries of `g` -/
def cutGrid (ph : Fin m → Fin n → ℕ) (vE : Fin (m + 1) → Fin n → ℕ) (hE : Fin m → Fin (n + 1) → ℕ) (g : Fin m → Fin n → ND ℂ) : Fin m → Fin n → ND ℂ :=
  fun j i => ⟨[ph j i, vE j.castSucc i, hE j i.succ, vE j.succ i, hE j i.castSucc], (g j i).val⟩

/-- `x` with this grid as its data -/
def withGrid (x : FPEPS) (g : Fin m → Fin n → ND ℂ) : FPEPS := { x with data := gridList g }

theorem cutGrid_self (h : PepsGrid ph vE hE g) : cutGrid ph vE hE g = g := by
  funext j i
  unfold cutGrid
  rw [← h j i]

theorem Holds.withGrid_eq (h : x.Holds m n ph vE hE g) : x = x.withGrid (cutGrid ph vE hE g) := by
  rw [cutGrid_self h.grid]
  unfold withGrid
  rw [← h.data]

theorem withGrid_holds (hm : 0 < m) (hn : 0 < n) : (x.withGrid (cutGrid ph vE hE g)).Holds m n ph vE hE (cutGrid ph vE hE g) :=
  ⟨fun _ _ => rfl, rfl, hm, hn⟩

theorem pyGet_ofFn {α : Type} {n : ℕ} (f : Fin n → α) (k : ℕ) (h : k < n) : pyGet (List.ofFn f) k = .ok (f ⟨k, h⟩) := by
  simp [pyGet, h]

theorem pyGet_ofFn_err {α : Type} {n : ℕ} (f : Fin n → α) (k : ℕ) (h : n ≤ k) : pyGet (List.ofFn f) k = .error .indexError := by
  simp [pyGet, h]

theorem mapM_ofFn_err {α β : Type} {n : ℕ} {f : α → Py β} {a : Fin (n + 1) → α} {e : PyErr} (h : ∀ i, f (a i) = .error e) :
    (List.ofFn a).mapM f = .error e := by
  rw [List.ofFn_succ, List.mapM_cons, h, err_bind]

theorem ofFn_set {α : Type} {n : ℕ} (f : Fin n → α) (k : ℕ) (a : α) (h : k < n) :
    (List.ofFn f).set k a = List.ofFn (Function.update f ⟨k, h⟩ a) := (ofFn_update f ⟨k, h⟩ a).symm

/-- the vertical bonds of column `k` cut -/
def cutCol (k D : ℕ) (vE : Fin (m + 1) → Fin n → ℕ) : Fin (m + 1) → Fin n → ℕ := fun j i => if i.1 = k then min (vE j i) D else vE j i

/-- the horizontal bonds of row `k` cut -/
def cutRow (k D : ℕ) (hE : Fin m → Fin (n + 1) → ℕ) : Fin m → Fin (n + 1) → ℕ := fun j i => if j.1 = k then min (hE j i) D else hE j i

/-- the vertical bonds below row `k` cut -/
def cutBelow (k D : ℕ) (vE : Fin (m + 1) → Fin n → ℕ) : Fin (m + 1) → Fin n → ℕ := fun j i => if j.1 = k + 1 then min (vE j i) D else vE j i

/-- the horizontal bonds left of column `k` cut in the first `N` rows -/
def cutLeftE (N k D : ℕ) (hE : Fin m → Fin (n + 1) → ℕ) : Fin m → Fin (n + 1) → ℕ :=
  fun j i => if i.1 = k ∧ j.1 < N then min (hE j i) D else hE j i

theorem truncCol_ok {k D : ℕ} (hk : k < n) :
    (x.withGrid (cutGrid ph vE hE g)).truncateAlongColumn k D = .ok (x.withGrid (cutGrid ph (cutCol k D vE) hE g)) := by
  unfold truncateAlongColumn
  have : (x.withGrid (cutGrid ph vE hE g)).data.mapM (fun row => (do
      let A ← pyGet row k
      .ok (row.set k (cut (cut A 1 D) 3 D)) : Py (List (ND ℂ)))) = .ok (gridList (cutGrid ph (cutCol k D vE) hE g)) := by
    refine mapM_ofFn fun j => ?_
    rw [pyGet_ofFn _ k hk, ok_bind, ofFn_set _ k _ hk]
    congr 2
    funext i
    by_cases h : i = ⟨k, hk⟩
    · subst h
      rw [Function.update_self]
      simp [cut, cutGrid, cutCol]
    · rw [Function.update_of_ne h]
      have h' : i.1 ≠ k := fun e => h (Fin.ext e)
      simp [cutGrid, cutCol, h']
  rw [this, ok_bind]
  rfl

theorem truncCol_err {k D : ℕ} (hm : 0 < m) (hk : n ≤ k) :
    (x.withGrid (cutGrid ph vE hE g)).truncateAlongColumn k D = .error .indexError := by
  obtain ⟨m, rfl⟩ := Nat.exists_eq_succ_of_ne_zero hm.ne'
  unfold truncateAlongColumn
  have : (x.withGrid (cutGrid ph vE hE g)).data.mapM (fun row => (do
      let A ← pyGet row k
      .ok (row.set k (cut (cut A 1 D) 3 D)) : Py (List (ND ℂ)))) = .error .indexError := by
    refine mapM_ofFn_err fun j => ?_
    rw [pyGet_ofFn_err _ k hk, err_bind]
  rw [this, err_bind]

theorem truncRow_ok {k D : ℕ} (hk : k < m) :
    (x.withGrid (cutGrid ph vE hE g)).truncateAlongRow k D = .ok (x.withGrid (cutGrid ph vE (cutRow k D hE) g)) := by
  unfold truncateAlongRow withGrid gridList
  simp only
  rw [pyGet_ofFn _ k hk, ok_bind, ofFn_set _ k _ hk]
  congr 3
  funext j
  by_cases h : j = ⟨k, hk⟩
  · subst h
    rw [Function.update_self, rowTruncate, List.map_ofFn]
    congr 1
    funext i
    simp [cut, cutGrid, cutRow]
  · rw [Function.update_of_ne h]
    have h' : j.1 ≠ k := fun e => h (Fin.ext e)
    congr 1
    funext i
    simp [cutGrid, cutRow, h']

theorem truncRow_err {k D : ℕ} (hk : m ≤ k) :
    (x.withGrid (cutGrid ph vE hE g)).truncateAlongRow k D = .error .indexError := by
  unfold truncateAlongRow withGrid gridList
  simp only
  rw [pyGet_ofFn_err _ k hk, err_bind]

theorem truncBelow_ok {k D : ℕ} (hk : k + 1 < m) (hL : k + 1 ≠ x.Lx) :
    (x.withGrid (cutGrid ph vE hE g)).truncateBelow k D = .ok (x.withGrid (cutGrid ph (cutBelow k D vE) hE g)) := by
  unfold truncateBelow withGrid gridList
  have hL' : ((k : ℤ) != (x.Lx : ℤ) - 1) = true := by
    simp only [bne_iff_ne, ne_eq]
    omega
  simp only
  rw [hL', guardPy_true, ok_bind, pyGet_ofFn _ k (by omega), ok_bind, ofFn_set _ k _ (by omega), pyGet_ofFn _ (k + 1) hk, ok_bind, ofFn_set _ (k + 1) _ hk]
  congr 3
  funext j
  by_cases h1 : j = ⟨k + 1, hk⟩
  · subst h1
    rw [Function.update_self, Function.update_of_ne (by simp), List.map_ofFn]
    congr 1
    funext i
    simp [cut, cutGrid, cutBelow]
  · rw [Function.update_of_ne h1]
    have h1' : j.1 ≠ k + 1 := fun e => h1 (Fin.ext e)
    by_cases h2 : j = ⟨k, by omega⟩
    · subst h2
      rw [Function.update_self, List.map_ofFn]
      congr 1
      funext i
      simp [cut, cutGrid, cutBelow]
    · rw [Function.update_of_ne h2]
      have h2' : j.1 ≠ k := fun e => h2 (Fin.ext e)
      congr 1
      funext i
      simp [cutGrid, cutBelow, h1', h2']

theorem truncBelow_err {k D : ℕ} (hL : k + 1 = x.Lx) : (x.withGrid (cutGrid ph vE hE g)).truncateBelow k D = .error .exception := by
  unfold truncateBelow withGrid
  have hL' : ((k : ℤ) != (x.Lx : ℤ) - 1) = false := by
    simp only [bne_eq_false_iff_eq]
    omega
  simp only
  rw [hL']
  rfl

theorem cutLeft_ok {k D N : ℕ} (hk : k < n) (hk0 : 0 < k) (hN : N < m) :
    cutLeft k D (gridList (cutGrid ph vE (cutLeftE N k D hE) g)) N = .ok (gridList (cutGrid ph vE (cutLeftE (N + 1) k D hE) g)) := by
  unfold cutLeft gridList
  rw [pyGet_ofFn _ N hN, ok_bind, pyGet_ofFn _ k hk, ok_bind, ofFn_set _ k _ hk]
  dsimp only
  rw [pyGet_ofFn _ (k - 1) (by omega), ok_bind,
    ofFn_set _ (k - 1) _ (by omega), ofFn_set _ N _ hN]
  congr 2
  funext j
  by_cases h : j = ⟨N, hN⟩
  · subst h
    rw [Function.update_self]
    congr 1
    funext i
    by_cases h1 : i = ⟨k - 1, by omega⟩
    · subst h1
      rw [Function.update_self, Function.update_of_ne (by simp; omega)]
      have e1 : k - 1 + 1 = k := by omega
      have e2 : k - 1 ≠ k := by omega
      simp [cut, cutGrid, cutLeftE, e1, e2]
    · rw [Function.update_of_ne h1]
      have h1' : i.1 + 1 ≠ k := fun e => h1 (Fin.ext (by simp; omega))
      by_cases h2 : i = ⟨k, hk⟩
      · subst h2
        rw [Function.update_self]
        simp [cut, cutGrid, cutLeftE]
      · rw [Function.update_of_ne h2]
        have h2' : i.1 ≠ k := fun e => h2 (Fin.ext e)
        simp [cutGrid, cutLeftE, h1', h2']
  · rw [Function.update_of_ne h]
    have h' : j.1 ≠ N := fun e => h (Fin.ext e)
    have h'' : j.1 < N + 1 ↔ j.1 < N := by omega
    congr 1
    funext i
    simp only [cutGrid, cutLeftE, h'']

theorem cutLeft_loop {k D : ℕ} (hk : k < n) (hk0 : 0 < k) : ∀ N, N ≤ m →
    (List.range N).foldlM (cutLeft k D) (gridList (cutGrid ph vE hE g)) = .ok (gridList (cutGrid ph vE (cutLeftE N k D hE) g))
  | 0, _ => by
    have : cutLeftE 0 k D hE = hE := by funext j i; simp [cutLeftE]
    rw [this]
    rfl
  | N + 1, h => by
    rw [List.range_succ, List.foldlM_append, cutLeft_loop hk hk0 N (by omega), ok_bind, List.foldlM_cons, cutLeft_ok hk hk0 (by omega)]
    rfl

theorem truncLeft_ok {k D : ℕ} (hk : k < n) (hk0 : 0 < k) (hL : x.Lx ≤ m) :
    (x.withGrid (cutGrid ph vE hE g)).truncateLeft k D = .ok (x.withGrid (cutGrid ph vE (cutLeftE x.Lx k D hE) g)) := by
  unfold truncateLeft withGrid
  have : (k != 0) = true := by simpa using hk0.ne'
  simp only
  rw [this, guardPy_true, ok_bind, cutLeft_loop hk hk0 _ hL, ok_bind]

theorem truncLeft_err {k D : ℕ} (hk : k < n) (hk0 : 0 < k) (hL : m < x.Lx) :
    (x.withGrid (cutGrid ph vE hE g)).truncateLeft k D = .error .indexError := by
  unfold truncateLeft withGrid
  have : (k != 0) = true := by simpa using hk0.ne'
  simp only
  obtain ⟨t, ht⟩ := Nat.exists_eq_add_of_lt hL
  rw [this, guardPy_true, ok_bind, ht, Nat.add_assoc, List.range_add, List.foldlM_append, cutLeft_loop hk hk0 _ le_rfl, ok_bind, Nat.add_comm t 1,
    List.range_add, List.map_append, List.foldlM_append]
  have : cutLeft k D (gridList (cutGrid ph vE (cutLeftE m k D hE) g)) m = .error .indexError := by
    unfold cutLeft gridList
    rw [pyGet_ofFn_err _ m le_rfl, err_bind]
  simp [List.foldlM_cons, this]

/-- cutting several columns -/
def cutCols (l : List (ℕ × ℕ)) (vE : Fin (m + 1) → Fin n → ℕ) : Fin (m + 1) → Fin n → ℕ := l.foldl (fun vE p => cutCol p.1 p.2 vE) vE

/-- cutting several rows -/
def cutRows (l : List (ℕ × ℕ)) (hE : Fin m → Fin (n + 1) → ℕ) : Fin m → Fin (n + 1) → ℕ := l.foldl (fun hE p => cutRow p.1 p.2 hE) hE

theorem truncCols_ok : ∀ (l : List (ℕ × ℕ)) (vE : Fin (m + 1) → Fin n → ℕ), (∀ p ∈ l, p.1 < n) →
    l.foldlM (fun x iD => x.truncateAlongColumn iD.1 iD.2) (x.withGrid (cutGrid ph vE hE g)) = .ok (x.withGrid (cutGrid ph (cutCols l vE) hE g))
  | [], _, _ => rfl
  | p :: l, vE, h => by
    rw [List.foldlM_cons, truncCol_ok (h p (by simp)), ok_bind, truncCols_ok l _ fun q hq => h q (by simp [hq])]
    rfl

theorem truncCols_err (hm : 0 < m) : ∀ (l : List (ℕ × ℕ)) (vE : Fin (m + 1) → Fin n → ℕ), (∃ p ∈ l, n ≤ p.1) →
    l.foldlM (fun x iD => x.truncateAlongColumn iD.1 iD.2) (x.withGrid (cutGrid ph vE hE g)) = .error .indexError
  | [], _, h => by simp at h
  | p :: l, vE, h => by
    rw [List.foldlM_cons]
    by_cases hp : n ≤ p.1
    · rw [truncCol_err hm hp, err_bind]
    · rw [truncCol_ok (by omega), ok_bind]
      refine truncCols_err hm l _ ?_
      obtain ⟨q, hq, hn⟩ := h
      rcases List.mem_cons.1 hq with rfl | hq
      · exact absurd hn hp
      · exact ⟨q, hq, hn⟩

theorem truncRows_ok : ∀ (l : List (ℕ × ℕ)) (hE : Fin m → Fin (n + 1) → ℕ), (∀ p ∈ l, p.1 < m) →
    l.foldlM (fun x jD => x.truncateAlongRow jD.1 jD.2) (x.withGrid (cutGrid ph vE hE g)) = .ok (x.withGrid (cutGrid ph vE (cutRows l hE) g))
  | [], _, _ => rfl
  | p :: l, hE, h => by
    rw [List.foldlM_cons, truncRow_ok (h p (by simp)), ok_bind, truncRows_ok l _ fun q hq => h q (by simp [hq])]
    rfl

theorem truncRows_err : ∀ (l : List (ℕ × ℕ)) (hE : Fin m → Fin (n + 1) → ℕ), (∃ p ∈ l, m ≤ p.1) →
    l.foldlM (fun x jD => x.truncateAlongRow jD.1 jD.2) (x.withGrid (cutGrid ph vE hE g)) = .error .indexError
  | [], _, h => by simp at h
  | p :: l, hE, h => by
    rw [List.foldlM_cons]
    by_cases hp : m ≤ p.1
    · rw [truncRow_err hp, err_bind]
    · rw [truncRow_ok (by omega), ok_bind]
      refine truncRows_err l _ ?_
      obtain ⟨q, hq, hn⟩ := h
      rcases List.mem_cons.1 hq with rfl | hq
      · exact absurd hn hp
      · exact ⟨q, hq, hn⟩

theorem mem_truncList {L d i D : ℕ} :
    (i, D) ∈ truncList L d ↔ (i ≤ L / 2 ∧ D = d ^ i) ∨ (L / 2 - 1 ≤ i ∧ i < L ∧ D = d ^ (L - 1 - i)) := by
  unfold truncList
  rw [List.mem_append]
  refine or_congr ?_ ?_
  · simp only [List.mem_map, List.mem_range, Prod.mk.injEq]
    constructor
    · rintro ⟨k, hk, rfl, rfl⟩
      exact ⟨by omega, rfl⟩
    · rintro ⟨h, rfl⟩
      exact ⟨i, by omega, rfl, rfl⟩
  · have hlen : ((List.range L).drop (L / 2 - 1)).length = L - (L / 2 - 1) := by simp
    have hget : ∀ k (hk : k < ((List.range L).drop (L / 2 - 1)).reverse.length), ((List.range L).drop (L / 2 - 1)).reverse[k] = L - 1 - k := by
      intro k hk
      simp at hk ⊢
      omega
    simp only [List.mem_map, Prod.mk.injEq, Prod.exists]
    constructor
    · rintro ⟨a, k, hm, rfl, rfl⟩
      rw [List.mem_zipIdx_iff_getElem?] at hm
      obtain ⟨hk, ha⟩ := List.getElem?_eq_some_iff.1 hm
      rw [hget k hk] at ha
      subst ha
      simp at hk
      refine ⟨by omega, by omega, ?_⟩
      congr 1
      omega
    · rintro ⟨h1, h2, rfl⟩
      refine ⟨i, L - 1 - i, ?_, rfl, rfl⟩
      rw [List.mem_zipIdx_iff_getElem?]
      have hk : L - 1 - i < ((List.range L).drop (L / 2 - 1)).reverse.length := by simp; omega
      rw [List.getElem?_eq_getElem hk, hget _ hk]
      congr 1
      omega

theorem le_cutCols (j : Fin (m + 1)) (i : Fin n) (t : ℕ) : ∀ (l : List (ℕ × ℕ)) (vE : Fin (m + 1) → Fin n → ℕ),
    t ≤ cutCols l vE j i ↔ t ≤ vE j i ∧ ∀ D, (i.1, D) ∈ l → t ≤ D
  | [], vE => by simp [cutCols]
  | p :: l, vE => by
    show t ≤ cutCols l (cutCol p.1 p.2 vE) j i ↔ _
    rw [le_cutCols j i t l]
    unfold cutCol
    obtain ⟨a, D⟩ := p
    by_cases h : i.1 = a
    · subst h
      simp only [if_true, le_min_iff, List.mem_cons, Prod.mk.injEq, true_and]
      constructor
      · rintro ⟨⟨h1, h2⟩, h3⟩
        exact ⟨h1, fun D' hD => hD.elim (fun e => e ▸ h2) (h3 D')⟩
      · rintro ⟨h1, h2⟩
        exact ⟨⟨h1, h2 D (.inl rfl)⟩, fun D' hD => h2 D' (.inr hD)⟩
    · simp [h]

theorem le_cutRows (j : Fin m) (i : Fin (n + 1)) (t : ℕ) : ∀ (l : List (ℕ × ℕ)) (hE : Fin m → Fin (n + 1) → ℕ),
    t ≤ cutRows l hE j i ↔ t ≤ hE j i ∧ ∀ D, (j.1, D) ∈ l → t ≤ D
  | [], hE => by simp [cutRows]
  | p :: l, hE => by
    show t ≤ cutRows l (cutRow p.1 p.2 hE) j i ↔ _
    rw [le_cutRows j i t l]
    unfold cutRow
    obtain ⟨a, D⟩ := p
    by_cases h : j.1 = a
    · subst h
      simp only [if_true, le_min_iff, List.mem_cons, Prod.mk.injEq, true_and]
      constructor
      · rintro ⟨⟨h1, h2⟩, h3⟩
        exact ⟨h1, fun D' hD => hD.elim (fun e => e ▸ h2) (h3 D')⟩
      · rintro ⟨h1, h2⟩
        exact ⟨⟨h1, h2 D (.inl rfl)⟩, fun D' hD => h2 D' (.inr hD)⟩
    · simp [h]

/-- the smallest dimension in the list for a position -/
theorem forall_truncList {L d i t : ℕ} (hd : 0 < d) (hi : i < L) :
    (∀ D, (i, D) ∈ truncList L d → t ≤ D) ↔ t ≤ d ^ min i (L - 1 - i) := by
  simp only [mem_truncList]
  constructor
  · intro h
    rcases le_total i (L - 1 - i) with hle | hle
    · rw [min_eq_left hle]
      exact h _ (.inl ⟨by omega, rfl⟩)
    · rw [min_eq_right hle]
      exact h _ (.inr ⟨by omega, hi, rfl⟩)
  · rintro h D (⟨_, rfl⟩ | ⟨_, _, rfl⟩)
    · exact h.trans (Nat.pow_le_pow_right hd (min_le_left _ _))
    · exact h.trans (Nat.pow_le_pow_right hd (min_le_right _ _))

theorem cutCols_truncList {L d : ℕ} (hd : 0 < d) (vE : Fin (m + 1) → Fin n → ℕ) (j : Fin (m + 1)) (i : Fin n) (hi : i.1 < L) :
    cutCols (truncList L d) vE j i = min (vE j i) (d ^ min i.1 (L - 1 - i.1)) := by
  refine eq_of_forall_le_iff fun t => ?_
  rw [le_cutCols, forall_truncList hd hi, le_min_iff]

theorem cutRows_truncList {L d : ℕ} (hd : 0 < d) (hE : Fin m → Fin (n + 1) → ℕ) (j : Fin m) (i : Fin (n + 1)) (hj : j.1 < L) :
    cutRows (truncList L d) hE j i = min (hE j i) (d ^ min j.1 (L - 1 - j.1)) := by
  refine eq_of_forall_le_iff fun t => ?_
  rw [le_cutRows, forall_truncList hd hj, le_min_iff]

end

end Xmps.FPEPS
