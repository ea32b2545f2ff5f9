import Verif.Model.Heap

/-!
# Hoare triples for the heap model
-/

namespace Xmps

open HM

/-- if `I` holds before, `J` holds after a return and `E` after an exception -/
def Tri {α : Type} (I : Heap → Prop) (m : HM α) (J : α → Heap → Prop) (E : Heap → Prop) : Prop :=
  ∀ h, I h → (∀ a, (m h).1 = .ok a → J a (m h).2) ∧ ∀ e, (m h).1 = .error e → E (m h).2

section
variable {α β : Type} {I : Heap → Prop} {E : Heap → Prop}

theorem hm_bind (m : HM α) (f : α → HM β) (h : Heap) :
    (m >>= f) h = match m h with
      | (.ok a, h') => f a h'
      | (.error e, h') => (.error e, h') := rfl

theorem hm_pure (a : α) (h : Heap) : (pure a : HM α) h = (.ok a, h) := rfl

theorem Tri.bind {m : HM α} {f : α → HM β} {J : α → Heap → Prop} {K : β → Heap → Prop} (hm : Tri I m J E)
    (hf : ∀ a, Tri (J a) (f a) K E) : Tri I (m >>= f) K E := by
  intro h hI
  obtain ⟨h1, h2⟩ := hm h hI
  rw [hm_bind]
  rcases hr : m h with ⟨r, h'⟩
  rw [hr] at h1 h2
  cases r with
  | error e => exact ⟨fun a ha => (by cases ha), fun e' _ => h2 e rfl⟩
  | ok a => exact hf a h' (h1 a rfl)

theorem Tri.ret (a : α) : Tri I (pure a : HM α) (fun _ => I) E := fun _ hI => ⟨fun _ _ => hI, fun _ he => by cases he⟩

theorem Tri.lift (p : Py α) (hE : ∀ h, I h → E h) : Tri I (HM.lift p) (fun _ => I) E :=
  fun h hI => ⟨fun _ _ => hI, fun _ _ => hE h hI⟩

theorem Tri.attr (o : ℕ) (f : Obj → α) : Tri I (HM.attr o f) (fun _ => I) E :=
  fun _ hI => ⟨fun _ _ => hI, fun _ he => by cases he⟩

theorem Tri.cells (o : ℕ) : Tri I (HM.cells o) (fun _ => I) E :=
  fun _ hI => ⟨fun _ _ => hI, fun _ he => by cases he⟩

theorem Tri.cell (o m : ℕ) (hE : ∀ h, I h → E h) : Tri I (HM.cell o m) (fun _ => I) E :=
  fun h hI => ⟨fun _ _ => hI, fun _ _ => hE h hI⟩

theorem Tri.getItem (o m : ℕ) (hE : ∀ h, I h → E h) : Tri I (HM.getItem o m) (fun _ => I) E :=
  (Tri.cell o m hE).bind fun _ => fun _ hI => ⟨fun _ _ => hI, fun _ he => by cases he⟩

theorem Tri.each {f : α → HM Unit} {l : List α} (hf : ∀ m ∈ l, Tri I (f m) (fun _ => I) E) : Tri I (each f l) (fun _ => I) E := by
  induction l with
  | nil => exact Tri.ret ()
  | cons m l ih => exact (hf m (by simp)).bind fun _ => ih fun k hk => hf k (by simp [hk])

theorem Tri.weaken {m : HM α} {I' : Heap → Prop} {J J' : α → Heap → Prop} (h : Tri I m J E) (h1 : ∀ h, I' h → I h)
    (h2 : ∀ a h, J a h → J' a h) : Tri I' m J' E :=
  fun s hs => ⟨fun a ha => h2 a _ ((h s (h1 s hs)).1 a ha), (h s (h1 s hs)).2⟩

theorem Tri.ite {c : Prop} [Decidable c] {m n : HM α} {J : α → Heap → Prop} (h1 : Tri I m J E) (h2 : Tri I n J E) :
    Tri I (if c then m else n) J E := by
  split
  · exact h1
  · exact h2

end

theorem each_append {α : Type} (f : α → HM Unit) (l l' : List α) : each f (l ++ l') = (do
    each f l
    each f l') := by
  induction l with
  | nil => rfl
  | cons m l ih =>
    funext h
    show ((f m >>= fun _ => each f (l ++ l')) : HM Unit) h = ((f m >>= fun _ => each f l) >>= fun _ => each f l') h
    rw [ih, hm_bind, hm_bind]
    rcases hr : f m h with ⟨r, h'⟩
    cases r with
    | error e =>
      rw [hm_bind, hr]
    | ok a =>
      rw [hm_bind, hr]
      rfl

/-- what a method of `o` may do, seen from the heap `h0` at its start; the cells in `S` hold arrays made since -/
structure Inv (h0 : Heap) (o : ℕ) (S : ℕ → Prop) (h : Heap) : Prop where
  na : h0.na ≤ h.na
  arr : ∀ a < h0.na, h.arr a = h0.arr a
  nl : h.nl = h0.nl
  no : h.no = h0.no
  lst : ∀ l, l ≠ (h0.obj o).lst → h.lst l = h0.lst l
  obj : ∀ o', o' ≠ o → h.obj o' = h0.obj o'
  ref : (h.obj o).lst = (h0.obj o).lst
  L : (h.obj o).L = (h0.obj o).L
  cells : ∀ a ∈ h.lst (h0.obj o).lst, a < h.na
  short : (h.lst (h0.obj o).lst).length ≤ (h0.lst (h0.obj o).lst).length
  fresh : ∀ m a, S m → (h.lst (h0.obj o).lst)[m]? = some a → h0.na ≤ a

section
variable {h0 : Heap} {o : ℕ} {S S' : ℕ → Prop}

theorem Inv.mono {h : Heap} (hi : Inv h0 o S h) (hS : ∀ m, S' m → S m) : Inv h0 o S' h :=
  ⟨hi.na, hi.arr, hi.nl, hi.no, hi.lst, hi.obj, hi.ref, hi.L, hi.cells, hi.short, fun m a hm => hi.fresh m a (hS m hm)⟩

theorem Inv.start (h : ∀ a ∈ h0.lst (h0.obj o).lst, a < h0.na) : Inv h0 o (fun _ => False) h0 :=
  ⟨le_rfl, fun _ _ => rfl, rfl, rfl, fun _ _ => rfl, fun _ _ => rfl, rfl, rfl, h, le_rfl, fun _ _ hm => hm.elim⟩

/-- after an exception -/
abbrev Exc (h0 : Heap) (o : ℕ) : Heap → Prop := Inv h0 o fun _ => False

theorem Inv.exc {h : Heap} (hi : Inv h0 o S h) : Exc h0 o h := hi.mono fun _ hm => hm.elim

theorem Inv.alloc {h : Heap} (hi : Inv h0 o S h) (v : ND ℂ) :
    Inv h0 o S { h with arr := Function.update h.arr h.na v, na := h.na + 1 } := by
  refine ⟨le_trans hi.na (Nat.le_succ _), fun a ha => ?_, hi.nl, hi.no, hi.lst, hi.obj, hi.ref, hi.L,
    fun a ha => lt_trans (hi.cells a ha) (Nat.lt_succ_self _), hi.short, hi.fresh⟩
  show Function.update h.arr h.na v a = _
  rw [Function.update_of_ne (by have := hi.na; omega), hi.arr a ha]

theorem setItem_run (o m : ℕ) (v : ND ℂ) (h : Heap) : setItem o m v h =
    if m < (h.lst (h.obj o).lst).length then
      (.ok (), { h with
        arr := Function.update h.arr h.na v
        na := h.na + 1
        lst := Function.update h.lst (h.obj o).lst ((h.lst (h.obj o).lst).set m h.na) })
    else (.error .indexError, { h with arr := Function.update h.arr h.na v, na := h.na + 1 }) := rfl

theorem Tri.setItem (m : ℕ) (v : ND ℂ) : Tri (Inv h0 o S) (setItem o m v) (fun _ => Inv h0 o fun k => S k ∨ k = m) (Exc h0 o) := by
  intro h hi
  rw [setItem_run]
  split
  · refine ⟨fun _ _ => ?_, fun _ he => by cases he⟩
    have ha := hi.alloc v
    have hl : Function.update h.lst (h.obj o).lst ((h.lst (h.obj o).lst).set m h.na) (h0.obj o).lst = (h.lst (h0.obj o).lst).set m h.na := by
      rw [hi.ref, Function.update_self]
    refine ⟨ha.na, ha.arr, ha.nl, ha.no, fun l hl => ?_, ha.obj, ha.ref, ha.L, fun a hm => ?_, ?_, fun k a hk hka => ?_⟩
    · show Function.update h.lst _ _ l = _
      rw [hi.ref, Function.update_of_ne hl, hi.lst l hl]
    · change a ∈ Function.update h.lst _ _ _ at hm
      rw [hl] at hm
      rcases List.mem_or_eq_of_mem_set hm with hm | rfl
      · exact ha.cells a hm
      · exact Nat.lt_succ_self _
    · show (Function.update h.lst _ _ _).length ≤ _
      rw [hl, List.length_set]
      exact hi.short
    · change (Function.update h.lst _ _ _)[k]? = _ at hka
      rw [hl, List.getElem?_set] at hka
      split at hka
      · split at hka
        · cases hka
          exact hi.na
        · cases hka
      · rcases hk with hk | rfl
        · exact hi.fresh k a hk hka
        · exact absurd rfl (by assumption)
  · exact ⟨fun _ ha => (by cases ha), fun _ _ => (hi.alloc v).exc⟩

theorem Tri.setItem' (m : ℕ) (v : ND ℂ) : Tri (Inv h0 o S) (HM.setItem o m v) (fun _ => Inv h0 o S) (Exc h0 o) :=
  (Tri.setItem m v).weaken (fun _ hi => hi) fun _ _ hi => hi.mono fun _ hk => Or.inl hk

theorem Tri.setAttr (f : Obj → Obj) (hl : ∀ ob, (f ob).lst = ob.lst) (hL : ∀ ob, (f ob).L = ob.L) :
    Tri (Inv h0 o S) (setAttr o f) (fun _ => Inv h0 o S) (Exc h0 o) := by
  intro h hi
  refine ⟨fun _ _ => ?_, fun _ he => by cases he⟩
  refine ⟨hi.na, hi.arr, hi.nl, hi.no, hi.lst, fun o' ho => ?_, ?_, ?_, hi.cells, hi.short, hi.fresh⟩
  · show Function.update h.obj o _ o' = _
    rw [Function.update_of_ne ho, hi.obj o' ho]
  · show (Function.update h.obj o _ o).lst = _
    rw [Function.update_self, hl, hi.ref]
  · show (Function.update h.obj o _ o).L = _
    rw [Function.update_self, hL, hi.L]

theorem Tri.delCell (m : ℕ) : Tri (Inv h0 o S) (delCell o m) (fun _ => Exc h0 o) (Exc h0 o) := by
  intro h hi
  unfold HM.delCell
  split
  · refine ⟨fun _ _ => ?_, fun _ he => by cases he⟩
    have hl : Function.update h.lst (h.obj o).lst ((h.lst (h.obj o).lst).eraseIdx m) (h0.obj o).lst = (h.lst (h0.obj o).lst).eraseIdx m := by
      rw [hi.ref, Function.update_self]
    refine ⟨hi.na, hi.arr, hi.nl, hi.no, fun l hl => ?_, hi.obj, hi.ref, hi.L, fun a hm => ?_, ?_, fun _ _ hk => hk.elim⟩
    · show Function.update h.lst _ _ l = _
      rw [hi.ref, Function.update_of_ne hl, hi.lst l hl]
    · change a ∈ Function.update h.lst _ _ _ at hm
      rw [hl] at hm
      exact hi.cells a (List.mem_of_mem_eraseIdx hm)
    · show (Function.update h.lst _ _ _).length ≤ _
      rw [hl]
      exact le_trans (List.length_eraseIdx_le _ _) hi.short
  · exact ⟨fun _ ha => (by cases ha), fun _ _ => hi.exc⟩

/-! ### the methods -/

variable (qr rq polar : ND ℂ → Py (ND ℂ × ND ℂ)) (svd : Svd) (eig : Eig) (O : Ncon.SetOrder)

theorem tri_rightStep (m : ℕ) : Tri (Inv h0 o S) (HM.rightStep rq o m) (fun _ => Inv h0 o fun k => S k ∨ k = m) (Exc h0 o) := by
  refine (Tri.getItem _ _ fun _ hi => hi.exc).bind fun T => ?_
  refine (Tri.lift _ fun _ hi => hi.exc).bind fun g => ?_
  refine (Tri.lift _ fun _ hi => hi.exc).bind fun RQ => ?_
  refine (Tri.lift _ fun _ hi => hi.exc).bind fun Q' => ?_
  refine (Tri.setItem _ _).bind fun _ => Tri.ite ?_ ?_
  · refine (Tri.getItem _ _ fun _ hi => hi.exc).bind fun B => ?_
    refine (Tri.lift _ fun _ hi => hi.exc).bind fun t => ?_
    exact Tri.setItem' _ _
  · exact Tri.setAttr _ (fun _ => rfl) fun _ => rfl

theorem tri_leftStep (m : ℕ) : Tri (Inv h0 o S) (HM.leftStep qr o m) (fun _ => Inv h0 o S) (Exc h0 o) := by
  refine (Tri.getItem _ _ fun _ hi => hi.exc).bind fun T => ?_
  refine (Tri.lift _ fun _ hi => hi.exc).bind fun g => ?_
  refine (Tri.lift _ fun _ hi => hi.exc).bind fun RQ => ?_
  refine (Tri.lift _ fun _ hi => hi.exc).bind fun Q' => ?_
  refine (Tri.setItem' _ _).bind fun _ => ?_
  refine (Tri.attr _ _).bind fun L => Tri.ite ?_ ?_
  · refine (Tri.getItem _ _ fun _ hi => hi.exc).bind fun B => ?_
    refine (Tri.lift _ fun _ hi => hi.exc).bind fun t => ?_
    exact Tri.setItem' _ _
  · exact Tri.setAttr _ (fun _ => rfl) fun _ => rfl

theorem tri_rightOrth (fr : ℕ) (upTo : Option ℕ) :
    Tri (Inv h0 o S) (HM.rightOrth rq o fr upTo) (fun _ => Inv h0 o S) (Exc h0 o) := by
  refine (Tri.attr _ _).bind fun L => ?_
  refine (Tri.each fun m _ => (tri_rightStep rq m).weaken (fun _ hi => hi) fun _ _ hi => hi.mono fun _ hk => Or.inl hk).bind fun _ => Tri.ite ?_ ?_
  · exact Tri.setAttr _ (fun _ => rfl) fun _ => rfl
  · exact Tri.ret ()

/-- `right_orthogonalise(fr=oc)` puts a new array at `oc` -/
theorem tri_rightOrth_fresh (oc : ℕ) :
    Tri (Inv h0 o S) (HM.rightOrth rq o oc none) (fun _ => Inv h0 o fun k => k = oc ∧ oc < (h0.obj o).L) (Exc h0 o) := by
  intro h hi
  have hL : (h.obj o).L = (h0.obj o).L := hi.L
  by_cases hoc : oc < (h.obj o).L
  · have key : Tri (Inv h0 o S) (do
        each (HM.rightStep rq o) (List.range' oc ((h.obj o).L - oc)).reverse
        if oc = 0 ∧ (h.obj o).L = (h.obj o).L then setAttr o fun ob => { ob with orthogonal := true, oc := some 0 } else pure ())
        (fun _ => Inv h0 o fun k => k = oc ∧ oc < (h0.obj o).L) (Exc h0 o) := by
      obtain ⟨n, hn⟩ : ∃ n, (h.obj o).L - oc = n + 1 := ⟨(h.obj o).L - oc - 1, by omega⟩
      rw [hn, List.range'_succ, List.reverse_cons, each_append]
      have h1 : Tri (Inv h0 o S) (do
          each (HM.rightStep rq o) (List.range' (oc + 1) n).reverse
          each (HM.rightStep rq o) [oc]) (fun _ => Inv h0 o fun k => k = oc ∧ oc < (h0.obj o).L) (Exc h0 o) := by
        refine (Tri.each fun m _ => (tri_rightStep rq m).weaken (fun _ hi => hi) fun _ _ hi => hi.mono fun _ hk => Or.inl hk).bind fun _ => ?_
        refine (tri_rightStep rq oc).bind fun _ => (Tri.ret ()).weaken (fun _ hi => hi) fun _ _ hi => hi.mono ?_
        exact fun k hk => Or.inr hk.1
      refine h1.bind fun _ => Tri.ite ?_ ?_
      · exact Tri.setAttr _ (fun _ => rfl) fun _ => rfl
      · exact Tri.ret ()
    exact key h hi
  · have h2 := (tri_rightOrth rq oc none : Tri (Inv h0 o S) _ _ _) h hi
    refine ⟨fun a ha => (h2.1 a ha).mono ?_, h2.2⟩
    rintro k ⟨_, hk⟩
    omega

theorem tri_leftOrth (fr : ℕ) (upTo : Option ℕ) :
    Tri (Inv h0 o S) (HM.leftOrth qr o fr upTo) (fun _ => Inv h0 o S) (Exc h0 o) := by
  refine (Tri.attr _ _).bind fun L => ?_
  refine (Tri.each fun m _ => tri_leftStep qr m).bind fun _ => Tri.ite ?_ ?_
  · exact Tri.setAttr _ (fun _ => rfl) fun _ => rfl
  · exact Tri.ret ()

theorem tri_divide (oc : ℕ) (w : ND ℂ) (hS : oc < (h0.obj o).L → S oc) (hlen : (h0.lst (h0.obj o).lst).length ≤ (h0.obj o).L) :
    Tri (Inv h0 o S) (HM.writeItem o oc w) (fun _ => Inv h0 o S) (Exc h0 o) := by
  intro h hi
  have hrun : HM.writeItem o oc w h = match pyGet (h.lst (h.obj o).lst) oc with
    | .error e => (.error e, h)
    | .ok a => setCell o oc a { h with arr := Function.update h.arr a w } := by
    unfold HM.writeItem
    simp only [hm_bind, HM.cell]
    cases pyGet (h.lst (h.obj o).lst) oc <;> rfl
  rw [hrun]
  rw [hi.ref]
  by_cases hoc : oc < (h.lst (h0.obj o).lst).length
  · rw [pyGet_ok hoc]
    have hget : (h.lst (h0.obj o).lst)[oc]? = some (h.lst (h0.obj o).lst)[oc] := by rw [List.getElem?_eq_getElem hoc]
    have hfr : h0.na ≤ (h.lst (h0.obj o).lst)[oc] :=
      hi.fresh oc _ (hS (lt_of_lt_of_le hoc (le_trans hi.short hlen))) hget
    generalize (h.lst (h0.obj o).lst)[oc] = a at hget hfr
    have hset : Function.update h.lst (h0.obj o).lst ((h.lst (h0.obj o).lst).set oc a) = h.lst := by
      funext l
      rcases eq_or_ne l (h0.obj o).lst with rfl | hl
      · rw [Function.update_self]
        apply List.ext_getElem?
        intro k
        rw [List.getElem?_set]
        split
        · subst_vars
          exact hget.symm
        · rfl
      · rw [Function.update_of_ne hl]
    have hr : setCell o oc a { h with arr := Function.update h.arr a w } = (.ok (), { h with arr := Function.update h.arr a w }) := by
      unfold HM.setCell
      simp only [hi.ref]
      rw [if_pos hoc, hset]
    simp only [hr]
    refine ⟨fun _ _ => ?_, fun _ he => by cases he⟩
    refine ⟨hi.na, fun b hb => ?_, hi.nl, hi.no, hi.lst, hi.obj, hi.ref, hi.L, hi.cells, hi.short, hi.fresh⟩
    show Function.update h.arr a w b = _
    rw [Function.update_of_ne (by omega), hi.arr b hb]
  · have he : pyGet (h.lst (h0.obj o).lst) oc = .error .indexError := by
      simp [pyGet, List.getElem?_eq_none (not_lt.mp hoc)]
    rw [he]
    exact ⟨fun _ ha => (by cases ha), fun _ _ => hi.exc⟩

theorem tri_mixedOrth (oc : ℕ) (c : Option ℕ) (hlen : (h0.lst (h0.obj o).lst).length ≤ (h0.obj o).L) :
    Tri (Inv h0 o S) (HM.mixedOrth qr rq o oc c) (fun _ => Exc h0 o) (Exc h0 o) := by
  refine (Tri.lift _ fun _ hi => hi.exc).bind fun _ => ?_
  refine (tri_rightOrth_fresh rq oc).bind fun _ => ?_
  refine (tri_leftOrth qr 0 (some oc)).bind fun _ => ?_
  refine (Tri.getItem _ _ fun _ hi => hi.exc).bind fun A => ?_
  refine Tri.bind (J := fun _ => Inv h0 o fun k => k = oc ∧ oc < (h0.obj o).L) (Tri.setAttr _ (fun _ => rfl) fun _ => rfl) fun _ => ?_
  refine (tri_divide oc _ (fun h => ⟨rfl, h⟩) hlen).bind fun _ => ?_
  refine Tri.weaken (J := fun _ => Inv h0 o fun k => k = oc ∧ oc < (h0.obj o).L) ?_ (fun _ hi => hi) fun _ _ hi => hi.exc
  exact Tri.setAttr _ (fun _ => rfl) fun _ => rfl

theorem tri_postSelect (site which : ℕ) : Tri (Inv h0 o S) (HM.postSelect o site which) (fun _ => Exc h0 o) (Exc h0 o) := by
  refine Tri.ite ?_ ?_
  · refine (Tri.getItem _ _ fun _ hi => hi.exc).bind fun A => ?_
    refine (Tri.getItem _ _ fun _ hi => hi.exc).bind fun B => ?_
    refine (Tri.lift _ fun _ hi => hi.exc).bind fun _ => ?_
    refine (Tri.lift _ fun _ hi => hi.exc).bind fun _ => ?_
    exact (Tri.setItem' _ _).bind fun _ => Tri.delCell _
  · refine (Tri.getItem _ _ fun _ hi => hi.exc).bind fun A => ?_
    refine (Tri.lift _ fun _ hi => hi.exc).bind fun _ => ?_
    refine (Tri.getItem _ _ fun _ hi => hi.exc).bind fun B => ?_
    refine (Tri.lift _ fun _ hi => hi.exc).bind fun _ => ?_
    exact (Tri.setItem' _ _).bind fun _ => Tri.delCell _

theorem tri_pairStep (which : Side) (g : ND ℂ × ℕ × Option ℕ) :
    Tri (Inv h0 o S) (HM.pairStep qr rq svd O which o g) (fun _ => Inv h0 o S) (Exc h0 o) := by
  refine (Tri.getItem _ _ fun _ hi => hi.exc).bind fun A => ?_
  refine (Tri.getItem _ _ fun _ hi => hi.exc).bind fun B => ?_
  refine (Tri.lift _ fun _ hi => hi.exc).bind fun _ => ?_
  exact (Tri.setItem' _ _).bind fun _ => Tri.setItem' _ _

theorem tri_matchGaugeTo (o' : ℕ) : Tri (Inv h0 o S) (HM.matchGaugeTo polar o o') (fun _ => Inv h0 o S) (Exc h0 o) := by
  refine (Tri.attr _ _).bind fun L => Tri.each fun i _ => ?_
  refine (Tri.getItem _ _ fun _ hi => hi.exc).bind fun A => ?_
  refine (Tri.getItem _ _ fun _ hi => hi.exc).bind fun B => ?_
  refine (Tri.lift _ fun _ hi => hi.exc).bind fun _ => ?_
  refine (Tri.lift _ fun _ hi => hi.exc).bind fun _ => ?_
  refine (Tri.lift _ fun _ hi => hi.exc).bind fun _ => ?_
  refine (Tri.lift _ fun _ hi => hi.exc).bind fun _ => ?_
  refine (Tri.setItem' _ _).bind fun _ => Tri.ite ?_ (Tri.ret ())
  refine (Tri.getItem _ _ fun _ hi => hi.exc).bind fun A => ?_
  refine (Tri.lift _ fun _ hi => hi.exc).bind fun _ => ?_
  exact Tri.setItem' _ _

theorem tri_store (y : FMPS ℂ) : Tri (Inv h0 o S) (HM.store o y) (fun _ => Inv h0 o S) (Exc h0 o) := by
  refine (Tri.each fun m _ => ?_).bind fun _ => Tri.setAttr _ (fun _ => rfl) fun _ => rfl
  exact (Tri.lift _ fun _ hi => hi.exc).bind fun _ => Tri.setItem' _ _

theorem tri_leftCan (D : Option ℕ) : Tri (Inv h0 o S) (HM.leftCan svd eig o D) (fun _ => Inv h0 o S) (Exc h0 o) := fun h hi =>
  ((Tri.lift _ fun _ hi => hi.exc).bind fun y => tri_store y.1 : Tri (Inv h0 o S) (do
    let y ← HM.lift ((h.view o).leftCanonicalise svd eig D)
    HM.store o y.1 : HM Unit) (fun _ => Inv h0 o S) (Exc h0 o)) h hi

theorem tri_rightCan (D : Option ℕ) : Tri (Inv h0 o S) (HM.rightCan svd eig o D) (fun _ => Inv h0 o S) (Exc h0 o) := fun h hi =>
  ((Tri.lift _ fun _ hi => hi.exc).bind fun y => tri_store y.1 : Tri (Inv h0 o S) (do
    let y ← HM.lift ((h.view o).rightCanonicalise svd eig D)
    HM.store o y.1 : HM Unit) (fun _ => Inv h0 o S) (Exc h0 o)) h hi

end

end Xmps
