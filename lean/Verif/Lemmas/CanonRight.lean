import Verif.Lemmas.Mirror

/-! # Rank reduction in terms of weights, and the mirrored version needed by `right_canonicalise` -/

namespace Xmps

open Finset Xmps.Spec

/-- the non-zero weights -/
noncomputable def cutw (w : List ℂ) : List ℂ := w.take (rk w)

theorem cutw_one : cutw [1] = [1] := by simp [cutw, rk_one]

/-- bond dimensions of the chain are the numbers of weights -/
def ShapeW : List (List ℂ) → List (ND ℂ) → Prop
  | [_], [] => True
  | w :: w' :: ws, A :: As => (∃ d, A.shape = [d, w.length, w'.length]) ∧ ShapeW (w' :: ws) As
  | _, _ => False

/-- the second chain is the first one with all bonds cut down to the non-zero weights -/
def Cut : List (List ℂ) → List (ND ℂ) → List (ND ℂ) → Prop
  | [_], [], [] => True
  | w :: w' :: ws, A :: As, A' :: As' => (∃ d, A.shape = [d, w.length, w'.length] ∧ A'.shape = [d, rk w, rk w'] ∧
      ∀ s < d, ∀ a < rk w, ∀ c < rk w', A'.val [s, a, c] = A.val [s, a, c]) ∧ Cut (w' :: ws) As As'
  | _, _, _ => False

/-- right environments with explicit weights -/
def EnvW : List (List ℂ) → List (ND ℂ) → Prop
  | [w], [] => w = [1]
  | w :: w' :: ws, A :: As => NonnegLast w ∧ SiteL A w w' ∧ EnvW (w' :: ws) As
  | _, _ => False

theorem EnvL.weights : ∀ {As : List (ND ℂ)} {w : List ℂ} {Ls : List (ND ℂ)}, EnvL NonnegLast As w Ls →
    ∃ ws, EnvW (w :: ws) As ∧ List.Forall₂ IsDiag Ls (w :: ws).dropLast
  | [], w, Ls, h => ⟨[], h.1, by rw [h.2]; exact .nil⟩
  | A :: As, w, L :: Ls, h => by
    obtain ⟨hL, hw, w', hs, he⟩ := h
    obtain ⟨ws, h1, h2⟩ := EnvL.weights he
    exact ⟨w' :: ws, ⟨hw, hs, h1⟩, .cons hL h2⟩
  | _ :: _, _, [], h => h.elim

theorem EnvW.shape : ∀ {ws : List (List ℂ)} {As : List (ND ℂ)}, EnvW ws As → ShapeW ws As
  | [w], [], _ => trivial
  | w :: w' :: ws, A :: As, h => ⟨⟨h.2.1.choose, h.2.1.choose_spec.1⟩, EnvW.shape h.2.2⟩
  | [], _, h => h.elim
  | _ :: _ :: _, [], h => h.elim
  | [_], _ :: _, h => h.elim

theorem EnvW.nonneg : ∀ {ws : List (List ℂ)} {As : List (ND ℂ)}, EnvW ws As → ∀ w ∈ ws, NonnegLast w
  | [w], [], h, v, hv => by
    rw [List.mem_singleton.1 hv, show w = [1] from h]
    exact nonnegLast_one
  | w :: w' :: ws, A :: As, h, v, hv => by
    rcases List.mem_cons.1 hv with rfl | hv
    · exact h.1
    · exact EnvW.nonneg h.2.2 v hv
  | [], _, h, _, _ => h.elim
  | _ :: _ :: _, [], h, _, _ => h.elim
  | [_], _ :: _, h, _, _ => h.elim

theorem EnvW.length : ∀ {ws : List (List ℂ)} {As : List (ND ℂ)}, EnvW ws As → ws.length = As.length + 1
  | [w], [], _ => rfl
  | w :: w' :: ws, A :: As, h => by simpa using EnvW.length h.2.2
  | [], _, h => h.elim
  | _ :: _ :: _, [], h => h.elim
  | [_], _ :: _, h => h.elim

theorem EnvW.last : ∀ {ws : List (List ℂ)} {As : List (ND ℂ)}, EnvW ws As → ws.getLast? = some [1]
  | [w], [], h => by rw [show w = [1] from h]; rfl
  | w :: w' :: ws, A :: As, h => by
    rw [List.getLast?_cons_cons]
    exact EnvW.last h.2.2
  | [], _, h => h.elim
  | _ :: _ :: _, [], h => h.elim
  | [_], _ :: _, h => h.elim

/-- the cut chain, for weights of right environments -/
theorem EnvW.cut : ∀ {ws : List (List ℂ)} {As As' : List (ND ℂ)} {w : List ℂ} {ds : List ℕ} {Ls : List (ND ℂ)},
    EnvW (w :: ws) As → Cut (w :: ws) As As' → MpsChain ds As w.length 1 → List.Forall₂ IsDiag Ls ((w :: ws).dropLast.map cutw) →
    EnvL AllPos As' (cutw w) Ls ∧ MpsChain ds As' (rk w) 1 ∧ ((∀ A ∈ As, LeftIso A) → ∀ A ∈ As', LeftIso A) ∧
      (∀ D0, (∀ A ∈ As, A.dim 2 ≤ D0) → ∀ A ∈ As', A.dim 2 ≤ D0) ∧
      (∀ ss, InB ds ss → ∀ a, w.getD a 0 = 0 → a < w.length → amp As ss a 0 = 0) ∧
      ∀ ss, InB ds ss → ∀ a < rk w, amp As' ss a 0 = amp As ss a 0
  | [], [], [], w, [], Ls, h, hcut, hc, hL => by
    have h : w = [1] := h
    subst h
    have hL : Ls = [] := by simpa using hL
    refine ⟨⟨cutw_one, hL⟩, by simp [rk_one], by simp, by simp, ?_, fun _ _ _ _ => rfl⟩
    intro ss hs a h0 ha
    simp at ha
    subst ha
    simp at h0
  | w' :: ws, A :: As, A' :: As', w, d :: ds, Ls, h, hcut, hc, hL => by
    obtain ⟨hw, hsite, h⟩ := h
    obtain ⟨⟨d', hA, hA', hv⟩, hcut⟩ := hcut
    obtain ⟨n, hA2, hc⟩ := hc
    rw [hA] at hA2
    simp at hA2
    obtain ⟨rfl, rfl⟩ := hA2
    match Ls, hL with
    | L :: Ls, hL =>
      simp only [List.dropLast_cons_cons, List.map_cons] at hL
      obtain ⟨hL0, hL⟩ := List.forall₂_cons.1 hL
      have hw' : NonnegLast w' := h.nonneg w' (by simp)
      obtain ⟨h1, h2, h3, h4, h5, h6⟩ := EnvW.cut h hcut hc hL
      have hc2 := hsite.cut hA hw hw' hA' hv
      have hr' := rk_spec hw'
      refine ⟨⟨hL0, allPos_take hw, _, hc2.1, h1⟩, ⟨_, hA', h2⟩, ?_, ?_, ?_, ?_⟩
      · intro hAll B hB
        rcases List.mem_cons.1 hB with rfl | hB
        · exact hc2.2 (hAll A (by simp))
        · exact h3 (fun B hB => hAll B (List.mem_cons_of_mem _ hB)) B hB
      · intro D0 hAll B hB
        rcases List.mem_cons.1 hB with rfl | hB
        · have := hAll A (by simp)
          rw [dim2 hA] at this
          rw [dim2 hA']
          exact hr'.1.trans this
        · exact h4 D0 (fun B hB => hAll B (List.mem_cons_of_mem _ hB)) B hB
      · intro ss hs a h0 ha
        match ss, hs with
        | s :: ss, hs =>
          simp only [amp_cons, dim2 hA]
          refine Finset.sum_eq_zero fun c hc' => ?_
          have hc' : c < w'.length := by simpa using hc'
          by_cases hz : w'.getD c 0 = 0
          · rw [h5 ss hs.2 c hz hc', mul_zero]
          · rw [hsite.zero hA hw' ha h0 hs.1 hc' hz, zero_mul]
      · intro ss hs a ha
        match ss, hs with
        | s :: ss, hs =>
          simp only [amp_cons, dim2 hA, dim2 hA']
          rw [← Finset.sum_subset (Finset.range_mono hr'.1) fun c hc' hc'' => by
            rw [h5 ss hs.2 c (hr'.2.2 c (by simpa using hc'')) (by simpa using hc'), mul_zero]]
          refine Finset.sum_congr rfl fun c hc' => ?_
          have hc' : c < rk w' := by simpa using hc'
          rw [hv s hs.1 a ha c hc', h6 ss hs.2 c hc']
  | [], [], _ :: _, _, _, _, _, h, _, _ => h.elim
  | [], _ :: _, _, _, _, _, h, _, _, _ => h.elim
  | _ :: _, [], _, _, _, _, h, _, _, _ => h.elim
  | _ :: _, _ :: _, [], _, _, _, _, h, _, _ => h.elim
  | [], [], [], _, _ :: _, _, _, _, h, _ => by simp at h
  | _ :: _, _ :: _, _ :: _, _, [], _, _, _, h, _ => by simp at h

/-- `rk` of the weights of a cut bond, from the list of weights -/
theorem project_cut_aux : ∀ (As : List (ND ℂ)) (Ap : ND ℂ) (pre Lpre Ls : List (ND ℂ)) (w : List ℂ) (ws : List (List ℂ)) (d l : ℕ),
    Lpre.length = pre.length + 1 → Ap.shape = [d, l, w.length] → ShapeW (w :: ws) As → List.Forall₂ IsDiag Ls (w :: ws) →
    (∀ v ∈ w :: ws, NonnegLast v) → (w :: ws).getLast? = some [1] →
    ∃ Ap' As' Ls', (List.range' (pre.length + 1) As.length).foldlM FMPS.projStep (pre ++ Ap :: As, Lpre ++ Ls) =
        .ok (pre ++ Ap' :: As', Lpre ++ Ls') ∧
      Ap'.shape = [d, l, rk w] ∧ (∀ s a, ∀ c < rk w, Ap'.val [s, a, c] = Ap.val [s, a, c]) ∧
      Cut (w :: ws) As As' ∧ List.Forall₂ IsDiag Ls' ((w :: ws).map cutw)
  | [], Ap, pre, Lpre, Ls, w, [], d, l, hlen, hAp, hsh, hL, hnn, hlast => by
    have hw : w = [1] := by simpa using hlast
    subst hw
    exact ⟨Ap, [], Ls, by simp, by rw [hAp, rk_one]; rfl, fun _ _ _ _ => rfl, trivial, by simpa [cutw_one] using hL⟩
  | [], _, _, _, _, _, _ :: _, _, _, _, _, h, _, _, _ => h.elim
  | _ :: _, _, _, _, _, _, [], _, _, _, _, h, _, _, _ => h.elim
  | A :: As, Ap, pre, Lpre, Ls, w, w' :: ws, d, l, hlen, hAp, hsh, hL, hnn, hlast => by
    match Ls, hL with
    | L :: Ls, hL =>
    obtain ⟨hL0, hL⟩ := List.forall₂_cons.1 hL
    obtain ⟨⟨d', hA⟩, hsh⟩ := hsh
    have hw := hnn w (by simp)
    have hr := rk_spec hw
    obtain ⟨Ap', A1, L', hstep, hAp's, hAp'v, hA1s, hA1v, hL'⟩ :=
      projStep_mid (As := As) (Ls := Ls) hlen hL0 hAp hA hr.1
    obtain ⟨A1', As', Ls', e, hA1's, hA1'v, hcut, hLs'⟩ :=
      project_cut_aux As A1 (pre ++ [Ap']) (Lpre ++ [L']) Ls w' ws d' (rk w) (by simp [hlen]) hA1s hsh hL
        (fun v hv => hnn v (List.mem_cons_of_mem _ hv)) (by simpa [List.getLast?_cons_cons] using hlast)
    refine ⟨Ap', A1' :: As', L' :: Ls', ?_, hAp's, hAp'v, ⟨⟨d', hA, hA1's, ?_⟩, hcut⟩, .cons hL' hLs'⟩
    · rw [List.length_cons, List.range'_succ, List.foldlM_cons]
      rw [hstep, ok_bind]
      have e2 : (pre ++ [Ap']).length + 1 = pre.length + 1 + 1 := by simp
      rw [e2] at e
      simp only [List.append_assoc, List.cons_append, List.nil_append] at e
      rw [e]
    · intro s _ a ha c hc
      rw [hA1'v s a c hc, hA1v s a ha c]

theorem Cut.congr : ∀ {ws : List (List ℂ)} {As Bs Cs : List (ND ℂ)}, (∀ w ∈ ws, NonnegLast w) → List.Forall₂ (· ≈ ·) As Bs → Cut ws Bs Cs → Cut ws As Cs
  | [w], [], [], [], _, _, _ => trivial
  | w :: w' :: ws, A :: As, B :: Bs, C :: Cs, hn, hf, h => by
    obtain ⟨hAB, hf⟩ := List.forall₂_cons.1 hf
    obtain ⟨⟨d, hB, hC, hv⟩, h⟩ := h
    have hA : A.shape = [d, w.length, w'.length] := by rw [(ND.eqv_def.1 hAB).1, hB]
    have h1 := (rk_spec (hn w (by simp))).1
    have h2 := (rk_spec (hn w' (by simp))).1
    refine ⟨⟨d, hA, hC, fun s hs a ha c hc => ?_⟩, Cut.congr (fun w hw => hn w (List.mem_cons_of_mem _ hw)) hf h⟩
    rw [hv s hs a ha c hc, eqv_val3 hAB hA hs (by omega) (by omega)]
  | [], _, _, _, _, _, h => h.elim
  | [_], _, _ :: _, _, _, _, h => h.elim
  | [_], _, [], _ :: _, _, _, h => h.elim
  | _ :: _ :: _, _, [], _, _, _, h => h.elim
  | _ :: _ :: _, _, _ :: _, [], _, _, h => h.elim

theorem ShapeW.congr : ∀ {ws : List (List ℂ)} {As Bs : List (ND ℂ)}, List.Forall₂ (· ≈ ·) As Bs → ShapeW ws As → ShapeW ws Bs
  | [w], [], [], _, _ => trivial
  | w :: w' :: ws, A :: As, B :: Bs, hf, h => by
    obtain ⟨hAB, hf⟩ := List.forall₂_cons.1 hf
    obtain ⟨⟨d, hA⟩, h⟩ := h
    exact ⟨⟨d, by rw [← (ND.eqv_def.1 hAB).1, hA]⟩, ShapeW.congr hf h⟩
  | [], _, _, _, h => h.elim
  | [_], _ :: _, _, _, h => h.elim
  | _ :: _ :: _, [], _, _, h => h.elim

theorem ShapeW.last : ∀ {ws : List (List ℂ)} {As : List (ND ℂ)}, ShapeW ws As → As ≠ [] → ws.getLast? = some [1] →
    ∃ Z d m, pyGet As (As.length - 1) = .ok Z ∧ Z.shape = [d, m, 1]
  | [w, w'], [A], h, _, hl => by
    obtain ⟨⟨d, hA⟩, _⟩ := h
    have : w' = [1] := by simpa using hl
    subst this
    exact ⟨A, d, w.length, by simp [pyGet], hA⟩
  | w :: w' :: ws, A :: A' :: As, h, _, hl => by
    obtain ⟨Z, d, m, h1, h2⟩ := ShapeW.last h.2 (by simp) (by simpa [List.getLast?_cons_cons] using hl)
    exact ⟨Z, d, m, by simpa [pyGet] using h1, h2⟩
  | _, [], _, h, _ => by simp at h
  | [], _ :: _, h, _, _ => h.elim
  | [_], _ :: _, h, _, _ => h.elim
  | _ :: _ :: _ :: _, [_], h, _, _ => h.2.elim

/-- the whole loop of the rank reduction -/
theorem project_cut {data Ls : List (ND ℂ)} {ws : List (List ℂ)} (hne : data ≠ []) (hsh : ShapeW ([1] :: ws) data)
    (hL : List.Forall₂ IsDiag Ls ([1] :: ws)) (hnn : ∀ v ∈ ([1] : List ℂ) :: ws, NonnegLast v)
    (hlast : (([1] : List ℂ) :: ws).getLast? = some [1]) :
    ∃ data' Ls', FMPS.project data Ls = .ok (data', Ls') ∧ Cut ([1] :: ws) data data' ∧
      List.Forall₂ IsDiag Ls' ((([1] : List ℂ) :: ws).map cutw) := by
  obtain ⟨Z, dz, mz, hZ, hZs⟩ := hsh.last hne hlast
  match data, ws, Ls, hne, hsh, hL, hZ with
  | A :: As, w :: ws, L0 :: Ls, hne, hsh, hL, hZ =>
    obtain ⟨hL0, hL⟩ := List.forall₂_cons.1 hL
    obtain ⟨d, hA⟩ := hsh.1
    have hA : A.shape = [d, 1, w.length] := hA
    obtain ⟨data1, L0', e0, hf, hL0'⟩ := projStep_zero (Ls := Ls) hZ hZs (by simp) hA hL0
    have hsh1 := ShapeW.congr hf hsh
    match data1, hf, hsh1 with
    | B :: Bs, hf, hsh1 =>
      obtain ⟨⟨d1, hB⟩, hsh1⟩ := hsh1
      have hlen : As.length = Bs.length := by simpa using hf.length_eq
      have hlast' : (w :: ws).getLast? = some [1] := by simpa [List.getLast?_cons_cons] using hlast
      obtain ⟨B', Bs', Ls', e, hB', hB'v, hcut, hLs'⟩ :=
        project_cut_aux Bs B [] [L0'] Ls w ws d1 1 rfl hB hsh1 hL (fun v hv => hnn v (List.mem_cons_of_mem _ hv)) hlast'
      have hcut' : Cut ([1] :: w :: ws) (B :: Bs) (B' :: Bs') :=
        ⟨⟨d1, hB, by rw [rk_one]; exact hB', fun s _ a _ c hc => hB'v s a c hc⟩, hcut⟩
      refine ⟨B' :: Bs', L0' :: Ls', ?_, Cut.congr hnn hf hcut', .cons (by rw [cutw_one]; exact hL0') hLs'⟩
      unfold FMPS.project
      rw [List.length_cons, List.range_succ_eq_map, List.foldlM_cons, e0, ok_bind]
      have : List.map Nat.succ (List.range As.length) = List.range' 1 Bs.length := by
        rw [hlen, List.range'_eq_map_range]
        exact List.map_congr_left fun i _ => by omega
      rw [this]
      simpa using e
  | _ :: _, [], _, _, h, _, _ => exact h.elim
  | [], _, _, h, _, _, _ => simp at h

theorem cut_snoc : ∀ {ws : List (List ℂ)} {w w' : List ℂ} {As As' : List (ND ℂ)} {A A' : ND ℂ}, Cut (ws ++ [w]) As As' →
    (∃ d, A.shape = [d, w.length, w'.length] ∧ A'.shape = [d, rk w, rk w'] ∧
      ∀ s < d, ∀ a < rk w, ∀ c < rk w', A'.val [s, a, c] = A.val [s, a, c]) →
    Cut (ws ++ [w, w']) (As ++ [A]) (As' ++ [A'])
  | [], w, w', [], [], A, A', _, h => ⟨h, trivial⟩
  | [v], w, w', B :: Bs, B' :: Bs', A, A', hc, h => ⟨hc.1, cut_snoc (ws := []) hc.2 h⟩
  | v :: v' :: ws, w, w', B :: Bs, B' :: Bs', A, A', hc, h => ⟨hc.1, cut_snoc (ws := v' :: ws) hc.2 h⟩
  | [], _, _, _ :: _, _, _, _, h, _ => h.elim
  | [], _, _, [], _ :: _, _, _, h, _ => h.elim
  | [_], _, _, [], _, _, _, h, _ => h.elim
  | [_], _, _, _ :: _, [], _, _, h, _ => h.elim
  | _ :: _ :: _, _, _, [], _, _, _, h, _ => h.elim
  | _ :: _ :: _, _, _, _ :: _, [], _, _, h, _ => h.elim

theorem cut_mirror : ∀ {ws : List (List ℂ)} {As As' : List (ND ℂ)}, Cut ws As As' → Cut ws.reverse (mirror As) (mirror As')
  | [w], [], [], _ => trivial
  | w :: w' :: ws, A :: As, A' :: As', h => by
    obtain ⟨⟨d, hA, hA', hv⟩, h⟩ := h
    have ih := cut_mirror h
    rw [List.reverse_cons] at ih
    rw [List.reverse_cons, List.reverse_cons, List.append_assoc, List.singleton_append, mirror_cons, mirror_cons]
    refine cut_snoc ih ⟨d, (hc3 hA).1, (hc3 hA').1, fun s hs a ha c hc => ?_⟩
    rw [(hc3 hA).2, (hc3 hA').2, hv s hs c hc a ha]
  | [], _, _, h => h.elim
  | [_], [], _ :: _, h => h.elim
  | [_], _ :: _, _, h => h.elim
  | _ :: _ :: _, [], _, h => h.elim
  | _ :: _ :: _, _ :: _, [], h => h.elim

theorem shapeW_snoc : ∀ {ws : List (List ℂ)} {w w' : List ℂ} {As : List (ND ℂ)} {A : ND ℂ}, ShapeW (ws ++ [w]) As →
    (∃ d, A.shape = [d, w.length, w'.length]) → ShapeW (ws ++ [w, w']) (As ++ [A])
  | [], w, w', [], A, _, h => ⟨h, trivial⟩
  | [v], w, w', B :: Bs, A, hc, h => ⟨hc.1, shapeW_snoc (ws := []) hc.2 h⟩
  | v :: v' :: ws, w, w', B :: Bs, A, hc, h => ⟨hc.1, shapeW_snoc (ws := v' :: ws) hc.2 h⟩
  | [], _, _, _ :: _, _, h, _ => h.elim
  | [_], _, _, [], _, h, _ => h.elim
  | _ :: _ :: _, _, _, [], _, h, _ => h.elim

theorem shapeW_mirror : ∀ {ws : List (List ℂ)} {As : List (ND ℂ)}, ShapeW ws As → ShapeW ws.reverse (mirror As)
  | [w], [], _ => trivial
  | w :: w' :: ws, A :: As, h => by
    obtain ⟨⟨d, hA⟩, h⟩ := h
    have ih := shapeW_mirror h
    rw [List.reverse_cons] at ih
    rw [List.reverse_cons, List.reverse_cons, List.append_assoc, List.singleton_append, mirror_cons]
    exact shapeW_snoc ih ⟨d, (hc3 hA).1⟩
  | [], _, h => h.elim
  | [_], _ :: _, h => h.elim
  | _ :: _ :: _, [], h => h.elim

theorem mirror_mirror : ∀ {ds : List ℕ} {As : List (ND ℂ)} {l r : ℕ}, MpsChain ds As l r → mirror (mirror As) = As
  | [], [], _, _, _ => rfl
  | d :: ds, A :: As, l, r, h => by
    obtain ⟨n, hA, h⟩ := h
    rw [mirror_cons, mirror_append, mirror_mirror h]
    simp [mirror, hc_hc hA]
  | [], _ :: _, _, _, h => by simp at h
  | _ :: _, [], _, _, h => by simp at h

theorem Cut.mirror_mirror : ∀ {ws : List (List ℂ)} {As As' : List (ND ℂ)}, Cut ws As As' → mirror (mirror As') = As'
  | [w], [], [], _ => rfl
  | w :: w' :: ws, A :: As, A' :: As', h => by
    obtain ⟨⟨d, hA, hA', hv⟩, h⟩ := h
    rw [mirror_cons, mirror_append, Cut.mirror_mirror h]
    simp [mirror, hc_hc hA']
  | [], _, _, h => h.elim
  | [_], [], _ :: _, h => h.elim
  | [_], _ :: _, _, h => h.elim
  | _ :: _ :: _, [], _, h => h.elim
  | _ :: _ :: _, _ :: _, [], h => h.elim

theorem Cut.dim : ∀ {ws : List (List ℂ)} {As As' : List (ND ℂ)} {m : ℕ} {A : ND ℂ}, Cut ws As As' → pyGet As' m = .ok A →
    ∃ w, ws[m]? = some w ∧ A.dim 1 = rk w
  | [w], [], [], m, A, _, h => by simp [pyGet] at h
  | w :: w' :: ws, A :: As, A' :: As', 0, B, h, hg => by
    obtain ⟨⟨d, hA, hA', hv⟩, h⟩ := h
    have : A' = B := by simpa [pyGet] using hg
    subst this
    exact ⟨w, rfl, dim1 hA'⟩
  | w :: w' :: ws, A :: As, A' :: As', m + 1, B, h, hg => by
    obtain ⟨_, h⟩ := h
    obtain ⟨v, h1, h2⟩ := Cut.dim (m := m) h (by simpa using hg)
    exact ⟨v, by simpa using h1, h2⟩
  | [], _, _, _, _, h, _ => h.elim
  | [_], [], _ :: _, _, _, h, _ => h.elim
  | [_], _ :: _, _, _, _, h, _ => h.elim
  | _ :: _ :: _, [], _, _, _, h, _ => h.elim
  | _ :: _ :: _, _ :: _, [], _, _, h, _ => h.elim

theorem forall2_get {α β : Type} {R : α → β → Prop} : ∀ {l : List α} {l' : List β} {i : ℕ} {b : β}, List.Forall₂ R l l' → l'[i]? = some b →
    ∃ a, l[i]? = some a ∧ R a b
  | _, _, i, b, .nil, h => by simp at h
  | a :: l, b' :: l', 0, b, .cons hab _, h => ⟨a, rfl, by simp at h; rwa [← h]⟩
  | a :: l, b' :: l', i + 1, b, .cons _ hf, h => by
    obtain ⟨a, h1, h2⟩ := forall2_get hf (i := i) (by simpa using h)
    exact ⟨a, by simpa using h1, h2⟩

/-- the first sweep of `right_canonicalise` -/
theorem svd_right_full {svd : Svd} (hsvd : SVDLaw svd) (D : Option ℕ) (minD : Bool) (hD : ∀ D0, D = some D0 → 0 < D0)
    {x : FMPS ℂ} {ds : List ℕ} (hx : x.Holds ds) (hu : ∀ t ∈ ds, t = x.d) (hp : PosDims x.data)
    (hnz : D = none → ∃ s, InB ds s ∧ psi x.data s ≠ 0) :
    ∃ qs, (List.range x.data.length).reverse.foldlM (FMPS.rightSvdStep svd D minD) x = .ok { x with data := qs } ∧
      MpsChain ds qs 1 1 ∧ (∀ A ∈ qs, RightIso A) ∧ PosDims qs ∧
      (∀ D0, D = some D0 → ∀ A ∈ qs, A.dim 1 ≤ D0) ∧
      (D = none → ∃ c : ℂ, c ≠ 0 ∧ ∀ s, InB ds s → psi x.data s = c * psi qs s) := by
  have hlen := hx.chain.length_eq
  have hpos : 0 < ds.length := List.length_pos_iff.2 hx.ne
  have hpsi : ∀ s, InB ds s → psi x.data s = amp x.data s 0 0 := fun s hs => psi_eq_amp hx.chain hx.data_ne hs.length_eq
  obtain ⟨rest', qs, u, e, hq, hch1, hch2, hiso, hpd, -, hbd, hnz', hamp⟩ :=
    svd_right_sweep hsvd D minD hD (ds.length - 1) x x.data [] ds 1 1 (by simp) hu hx.chain hp (by omega) (by
      intro h
      obtain ⟨s, hs, hne⟩ := hnz h
      exact ⟨s, 0, 0, hs, by omega, by omega, by rwa [← hpsi s hs]⟩)
  have h1 : x.data.length - (ds.length - 1) = 1 := by omega
  rw [h1] at e hch1 hch2 hnz'
  obtain ⟨d, ds', rfl⟩ : ∃ d ds', ds = d :: ds' := List.exists_cons_of_ne_nil hx.ne
  simp only [List.take_succ_cons, List.take_zero, List.drop_succ_cons, List.drop_zero] at hch1 hch2 hnz'
  obtain ⟨A, rfl⟩ : ∃ A, rest' = [A] := by
    have := hch1.length_eq
    exact List.length_eq_one_iff.1 (by simpa using this)
  obtain ⟨m, hA, hm⟩ := hch1
  obtain rfl : m = u := hm
  have hdx : x.d = d := (hu d (by simp)).symm
  have hpA : PosDims [A] := fun B hB => hpd B (by simp at hB; simp [hB])
  rw [PosDims.cons, posDims3 hA] at hpA
  obtain ⟨⟨hd, _, hu0⟩, _⟩ := hpA
  obtain ⟨A', k, estep, hk, hA', hiA, hkD, hkN, R, hv1⟩ :=
    rightSvdStep_last hsvd (x := { x with data := A :: qs }) (post := qs) rfl hdx hA hd (by omega) hu0 D minD
  have hdu : 0 < d * m := Nat.mul_pos hd hu0
  have hk1 : k = 1 := by
    have hk1 : k ≤ 1 := le_trans hk (min_le_left _ _)
    rcases Nat.eq_zero_or_pos k with h0 | h0
    · exfalso
      subst h0
      cases hDe : D with
      | some D0 =>
        have := hkD D0 hDe
        have := hD D0 hDe
        omega
      | none =>
        obtain ⟨ss, a, b, hs, ha, hb, hne⟩ := hnz' hDe
        match ss, hs with
        | [s], hs =>
          rw [amp_single _ _ _ _ (by rw [dim2 hA]; exact hb), hv1 hDe s hs.1 a ha b hb] at hne
          simp at hne
    · omega
  subst hk1
  have hch' : MpsChain (d :: ds') (A' :: qs) 1 1 := ⟨m, hA', hch2⟩
  have hpsi' : D = none → ∀ s, InB (d :: ds') s → psi x.data s = R 0 0 * psi (A' :: qs) s := by
    intro h s hs
    rw [hpsi s hs, psi_eq_amp hch' (by simp) hs.length_eq, ← hamp h s hs 0 (by omega) 0 (by omega)]
    match s, hs with
    | t :: s, hs =>
      rw [List.singleton_append]
      simp only [amp_cons, dim2 hA, dim2 hA', Finset.mul_sum]
      refine Finset.sum_congr rfl fun c hc => ?_
      rw [hv1 h t hs.1 0 (by omega) c (by simpa using hc), Finset.sum_range_one, mul_assoc]
  refine ⟨A' :: qs, ?_, hch', ?_, ?_, ?_, ?_⟩
  · have hl : x.data.length = (ds'.length + 1 - 1) + 1 := by simp at hlen; omega
    rw [hl, List.range_succ_eq_map, List.reverse_cons, List.foldlM_append]
    have e' : (List.map Nat.succ (List.range (ds'.length + 1 - 1))) = List.range' 1 ((d :: ds').length - 1) := by
      rw [List.range'_eq_map_range]
      simp only [List.length_cons]
      exact List.map_congr_left fun i _ => by omega
    rw [e', e, ok_bind, List.foldlM_cons]
    simp only [List.append_nil, List.singleton_append]
    rw [estep, ok_bind]
    rfl
  · intro B hB
    rcases List.mem_cons.1 hB with rfl | h
    · exact hiA
    · exact hiso B h
  · rw [PosDims.cons, posDims3 hA']
    exact ⟨⟨hd, by omega, hu0⟩, fun B hB => hpd B (by simp [hB])⟩
  · intro D0 h B hB
    rcases List.mem_cons.1 hB with rfl | h'
    · rw [dim1 hA']; exact hD D0 h
    · exact hbd D0 h B h'
  · intro h
    refine ⟨R 0 0, ?_, hpsi' h⟩
    intro h0
    obtain ⟨s, hs, hne⟩ := hnz h
    rw [hpsi' h s hs, h0, zero_mul] at hne
    exact hne rfl

end Xmps
