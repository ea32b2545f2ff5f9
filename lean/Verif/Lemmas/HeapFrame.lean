import Verif.Spec.Heap
import Verif.Lemmas.Heap

/-!
# What the calls leave alone
-/

namespace Xmps

open HM Spec

theorem view_congr {h h' : Heap} {o o' : ℕ} (ho : h.obj o = h'.obj o') (hl : h.lst (h'.obj o').lst = h'.lst (h'.obj o').lst)
    (ha : ∀ a ∈ h'.lst (h'.obj o').lst, h.arr a = h'.arr a) : h.view o = h'.view o' := by
  unfold Heap.view
  rw [ho, hl, List.map_congr_left ha]

/-- the conclusion of a call on a separate heap -/
def Frame (c : Option ℕ) (h0 h : Heap) : Prop := Separate h ∧ OnlyChanges c h0 h

theorem Inv.frame {h0 h : Heap} {o : ℕ} {S : ℕ → Prop} (hs : Separate h0) (ho : o < h0.no) (hi : Inv h0 o S h) : Frame (some o) h0 h := by
  have hother : ∀ o' < h0.no, o' ≠ o → h.obj o' = h0.obj o' ∧ h.lst (h0.obj o').lst = h0.lst (h0.obj o').lst := fun o' h' hne =>
    ⟨hi.obj o' hne, hi.lst _ (hs.apart o' h' o ho hne)⟩
  refine ⟨⟨?_, ?_, ?_, ?_⟩, ⟨hi.na, hi.arr, hi.no.ge, ?_⟩⟩
  · intro o' h'
    rw [hi.no] at h'
    rw [hi.nl]
    by_cases hne : o' = o
    · subst hne
      rw [hi.ref]
      exact hs.valid _ h'
    · rw [(hother o' h' hne).1]
      exact hs.valid _ h'
  · intro o1 h1 o2 h2 hne
    rw [hi.no] at h1 h2
    have e : ∀ o', (h.obj o').lst = (h0.obj o').lst := fun o' => by
      by_cases hne : o' = o
      · rw [hne, hi.ref]
      · rw [hi.obj o' hne]
    rw [e, e]
    exact hs.apart o1 h1 o2 h2 hne
  · intro o' h' a ha
    rw [hi.no] at h'
    by_cases hne : o' = o
    · subst hne
      rw [hi.ref] at ha
      exact hi.cells a ha
    · rw [(hother o' h' hne).1, (hother o' h' hne).2] at ha
      exact lt_of_lt_of_le (hs.cells o' h' a ha) hi.na
  · intro o' h'
    rw [hi.no] at h'
    by_cases hne : o' = o
    · subst hne
      rw [hi.ref, hi.L]
      exact le_trans hi.short (hs.short _ h')
    · rw [(hother o' h' hne).1, (hother o' h' hne).2]
      exact hs.short o' h'
  · intro o' h' hne
    have hne : o' ≠ o := fun h => hne (by rw [h])
    obtain ⟨e1, e2⟩ := hother o' h' hne
    exact view_congr e1 e2 fun a ha => hi.arr a (hs.cells o' h' a ha)

/-- a method of `o` -/
theorem Tri.frame {α : Type} {m : HM α} {h0 : Heap} {o : ℕ} (hs : Separate h0) (ho : o < h0.no)
    (h : Tri (Inv h0 o fun _ => False) m (fun _ => Exc h0 o) (Exc h0 o)) : Frame (some o) h0 (m h0).2 := by
  have hi := h h0 (Inv.start (hs.cells o ho))
  cases hr : (m h0).1 with
  | error e => exact (hi.2 e hr).frame hs ho
  | ok a => exact (hi.1 a hr).frame hs ho

/-! ### new objects -/

theorem Frame.refl {h : Heap} (hs : Separate h) : Frame none h h :=
  ⟨hs, le_rfl, fun _ _ => rfl, le_rfl, fun _ _ _ => rfl⟩

theorem Frame.alloc {h0 h : Heap} {c : Option ℕ} (hf : Frame c h0 h) (v : ND ℂ) :
    Frame c h0 { h with arr := Function.update h.arr h.na v, na := h.na + 1 } := by
  obtain ⟨hs, ho⟩ := hf
  refine ⟨⟨hs.valid, hs.apart, fun o h' a ha => lt_trans (hs.cells o h' a ha) (Nat.lt_succ_self _), hs.short⟩,
    ⟨le_trans ho.na (Nat.le_succ _), fun a ha => ?_, ho.no, fun o h' hc => ?_⟩⟩
  · show Function.update h.arr h.na v a = _
    rw [Function.update_of_ne (by have := ho.na; omega), ho.arr a ha]
  · rw [← ho.view o h' hc]
    refine view_congr rfl rfl fun a ha => ?_
    show Function.update h.arr h.na v a = _
    have := hs.cells o (lt_of_lt_of_le h' ho.no) a ha
    rw [Function.update_of_ne (by omega)]

theorem init_val {data : List (ND ℂ)} {d : Option ℕ} {y : FMPS ℂ} (h : FMPS.init data d = .ok y) :
    y = { data := data, L := data.length, d := y.d, D := y.D } := by
  cases d with
  | some d =>
    obtain ⟨D, -, h⟩ := bind_eq_ok (show (FMPS.bondDimension data >>= fun D => .ok ({ data := data, L := data.length, d := d, D := D } : FMPS ℂ)) = .ok y from h)
    cases h
    rfl
  | none =>
    obtain ⟨A, -, h⟩ := bind_eq_ok (show (pyGet data 0 >>= fun A => pyGet A.shape 0 >>= fun d => FMPS.bondDimension data >>= fun D =>
      .ok ({ data := data, L := data.length, d := d, D := D } : FMPS ℂ)) = .ok y from h)
    obtain ⟨d, -, h⟩ := bind_eq_ok h
    obtain ⟨D, -, h⟩ := bind_eq_ok h
    cases h
    rfl

theorem init_val' {data : List (ND ℂ)} {d : Option ℕ} {y : FMPS ℂ} (h : FMPS.init data d = .ok y) :
    y = { data := data, L := y.L, d := y.d, D := y.D } := by
  have := init_val h
  have hL : y.L = data.length := by rw [this]
  rw [hL]
  exact this

/-- `fMPS(list)` for a new list -/
theorem newObj_run (cells : List ℕ) (d : Option ℕ) (h : Heap) : newObj cells d h = match FMPS.init (cells.map h.arr) d with
    | .error e => (.error e, h)
    | .ok y => (.ok h.no,
      { h with
        lst := Function.update h.lst h.nl cells
        nl := h.nl + 1
        obj := Function.update h.obj h.no { lst := h.nl, L := y.L, d := y.d, D := y.D }
        no := h.no + 1 }) := rfl

theorem Frame.newList {h0 h : Heap} {c : Option ℕ} (hf : Frame c h0 h) (cells : List ℕ)
    (hcells : ∀ a ∈ cells, a < h.na) (o : ℕ) (ho : c = some o ∨ o = h.no) (no : ℕ) (hno : no = if o = h.no then h.no + 1 else h.no)
    (ob : Obj) (hob : ob.lst = h.nl) (hL : cells.length ≤ ob.L) :
    Frame c h0 { h with
        lst := Function.update h.lst h.nl cells
        nl := h.nl + 1
        obj := Function.update h.obj o ob
        no := no } := by
  obtain ⟨hs, hn⟩ := hf
  have hno' : h.no ≤ no := by
    rw [hno]
    split <;> omega
  have hlt : ∀ o' < no, o' ≠ o → o' < h.no := by
    intro o' h' hne
    rw [hno] at h'
    split at h' <;> omega
  have hlst : ∀ o' < h.no, Function.update h.lst h.nl cells (h.obj o').lst = h.lst (h.obj o').lst := fun o' h' => by
    rw [Function.update_of_ne (hs.valid o' h').ne]
  refine ⟨⟨?_, ?_, ?_, ?_⟩, ⟨hn.na, hn.arr, le_trans hn.no hno', ?_⟩⟩
  · intro o' h'
    show (Function.update h.obj o ob o').lst < h.nl + 1
    by_cases hne : o' = o
    · subst hne
      rw [Function.update_self, hob]
      exact Nat.lt_succ_self _
    · rw [Function.update_of_ne hne]
      exact lt_trans (hs.valid o' (hlt o' h' hne)) (Nat.lt_succ_self _)
  · intro o1 h1 o2 h2 hne
    show (Function.update h.obj o ob o1).lst ≠ (Function.update h.obj o ob o2).lst
    by_cases e1 : o1 = o
    · have e2 : o2 ≠ o := fun e => hne (e1.trans e.symm)
      rw [e1, Function.update_self, Function.update_of_ne e2, hob]
      exact (hs.valid o2 (hlt o2 h2 e2)).ne'
    · rw [Function.update_of_ne e1]
      by_cases e2 : o2 = o
      · rw [e2, Function.update_self, hob]
        exact (hs.valid o1 (hlt o1 h1 e1)).ne
      · rw [Function.update_of_ne e2]
        exact hs.apart o1 (hlt o1 h1 e1) o2 (hlt o2 h2 e2) hne
  · intro o' h' a ha
    change a ∈ Function.update h.lst h.nl cells (Function.update h.obj o ob o').lst at ha
    by_cases hne : o' = o
    · rw [hne, Function.update_self, hob, Function.update_self] at ha
      exact hcells a ha
    · rw [Function.update_of_ne hne, hlst o' (hlt o' h' hne)] at ha
      exact hs.cells o' (hlt o' h' hne) a ha
  · intro o' h'
    show (Function.update h.lst h.nl cells (Function.update h.obj o ob o').lst).length ≤ (Function.update h.obj o ob o').L
    by_cases hne : o' = o
    · rw [hne, Function.update_self, hob, Function.update_self]
      exact hL
    · rw [Function.update_of_ne hne, hlst o' (hlt o' h' hne)]
      exact hs.short o' (hlt o' h' hne)
  · intro o' h' hco
    rw [← hn.view o' h' hco]
    have hne : o' ≠ o := by
      rintro rfl
      rcases ho with ho | ho
      · exact hco ho
      · have := hn.no
        omega
    refine view_congr ?_ (hlst o' (lt_of_lt_of_le h' hn.no)) fun _ _ => rfl
    show Function.update h.obj o ob o' = _
    rw [Function.update_of_ne hne]

theorem Frame.newObj {h0 h : Heap} (hf : Frame none h0 h) {cells : List ℕ} (hcells : ∀ a ∈ cells, a < h.na) (d : Option ℕ) :
    Frame none h0 (newObj cells d h).2 := by
  rw [newObj_run]
  cases hy : FMPS.init (cells.map h.arr) d with
  | error e => exact hf
  | ok y =>
    refine hf.newList cells hcells h.no (Or.inr rfl) _ (by rw [if_pos rfl]) _ rfl ?_
    show cells.length ≤ y.L
    rw [init_val hy, List.length_map]

theorem allocs_run (vs : List (ND ℂ)) {h0 h : Heap} {c : Option ℕ} (hf : Frame c h0 h) :
    ∃ as h', allocs vs h = (.ok as, h') ∧ Frame c h0 h' ∧ as.length = vs.length ∧ as.map h'.arr = vs ∧ (∀ a ∈ as, a < h'.na) ∧
      h'.no = h.no ∧ h'.obj = h.obj ∧ h.na ≤ h'.na ∧ ∀ a < h.na, h'.arr a = h.arr a := by
  induction vs generalizing h with
  | nil => exact ⟨[], h, rfl, hf, rfl, rfl, fun a ha => (by cases ha), rfl, rfl, le_rfl, fun _ _ => rfl⟩
  | cons v vs ih =>
    obtain ⟨as, h', h1, h2, h3, h4, h5, h6, h7, h8, h9⟩ := ih (hf.alloc v)
    have hr : allocs (v :: vs) h = (.ok (h.na :: as), h') := by
      show (alloc v >>= fun a => allocs vs >>= fun as => pure (a :: as) : HM (List ℕ)) h = _
      rw [hm_bind]
      show (allocs vs >>= fun as => pure (h.na :: as) : HM (List ℕ)) { h with arr := Function.update h.arr h.na v, na := h.na + 1 } = _
      rw [hm_bind, h1]
      rfl
    refine ⟨h.na :: as, h', hr, h2, by simp [h3], ?_, ?_, h6, h7, le_trans (Nat.le_succ _) h8, fun a ha => ?_⟩
    · rw [List.map_cons, h4, h9 h.na (Nat.lt_succ_self _)]
      show Function.update h.arr h.na v h.na :: vs = _
      rw [Function.update_self]
    · intro a ha
      rcases List.mem_cons.mp ha with rfl | ha
      · exact h8
      · exact h5 a ha
    · rw [h9 a (lt_trans ha (Nat.lt_succ_self _))]
      show Function.update h.arr h.na v a = _
      rw [Function.update_of_ne ha.ne]

theorem Frame.rebind {h : Heap} {o : ℕ} (hs : Separate h) (ho : o < h.no) (y : FMPS ℂ) (hy : y.data.length ≤ y.L) :
    Frame (some o) h (rebind o y h).2 := by
  have hf : Frame (some o) h h := ⟨hs, le_rfl, fun _ _ => rfl, le_rfl, fun _ _ _ => rfl⟩
  obtain ⟨as, h', h1, h2, h3, h4, h5, h6, h7, -, -⟩ := allocs_run y.data hf
  unfold HM.rebind
  rw [hm_bind, h1]
  refine h2.newList as h5 o (Or.inl rfl) _ ?_ _ rfl (by rw [h3]; exact hy)
  rw [if_neg (by omega)]

theorem leftSplits_length {svd : Svd} {d : ℕ} : ∀ {n : ℕ} {Psi : ND ℂ} {r : List (ND ℂ) × ND ℂ × List (ND ℂ)},
    FMPS.leftSplits svd d n Psi = .ok r → r.1.length = n
  | 0, _, _, h => by
    cases h
    rfl
  | n + 1, Psi, r, h => by
    unfold FMPS.leftSplits at h
    obtain ⟨a, -, h⟩ := bind_eq_ok h
    obtain ⟨b, hb, h⟩ := bind_eq_ok h
    cases h
    simp [leftSplits_length hb]

theorem rightSplits_length {svd : Svd} {d : ℕ} : ∀ {n : ℕ} {Psi : ND ℂ} {r : List (ND ℂ) × ND ℂ × List (ND ℂ)},
    FMPS.rightSplits svd d n Psi = .ok r → r.1.length = n
  | 0, _, _, h => by
    cases h
    rfl
  | n + 1, Psi, r, h => by
    unfold FMPS.rightSplits at h
    obtain ⟨a, -, h⟩ := bind_eq_ok h
    obtain ⟨b, hb, h⟩ := bind_eq_ok h
    cases h
    simp [rightSplits_length hb]

theorem leftFromState_length {svd : Svd} {state : ND ℂ} {r : FMPS ℂ × List (ND ℂ)} (h : FMPS.leftFromState svd state = .ok r) :
    r.1.data.length ≤ r.1.L := by
  unfold FMPS.leftFromState at h
  obtain ⟨d, -, h⟩ := bind_eq_ok h
  obtain ⟨b, hb, h⟩ := bind_eq_ok h
  cases h
  exact (leftSplits_length hb).le

theorem rightFromState_length {svd : Svd} {state : ND ℂ} {r : FMPS ℂ × List (ND ℂ)} (h : FMPS.rightFromState svd state = .ok r) :
    r.1.data.length ≤ r.1.L := by
  unfold FMPS.rightFromState at h
  obtain ⟨d, -, h⟩ := bind_eq_ok h
  obtain ⟨b, hb, h⟩ := bind_eq_ok h
  cases h
  exact (rightSplits_length hb).le

end Xmps
