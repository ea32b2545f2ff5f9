import Verif.Lemmas.HeapFrame
import Verif.Lemmas.HeapSim

/-!
# C40: objects are independent
-/

namespace Xmps

open HM Spec

theorem newObj_frame_of {h0 h : Heap} (hf : Frame none h0 h) {cells : List ℕ} (hcells : ∀ a ∈ cells, a < h.na) (d : Option ℕ) :
    Frame none h0 (newObj cells d h).2 := hf.newObj hcells d

theorem apply_frame {h : Heap} (hs : Separate h) {o : ℕ} (ho : o < h.no) (op : ND ℂ) (site : ℕ) : Frame none h (HM.apply o op site h).2 := by
  have hrun : HM.apply o op site h = (do
      let A ← HM.getItem o site
      let t ← HM.lift (op.tensordot A [1] [0])
      let a ← HM.alloc t
      newObj ((h.lst (h.obj o).lst).set site a) none : HM ℕ) h := rfl
  rw [hrun]
  have hT : Tri (fun h' => h' = h) (do
      let A ← HM.getItem o site
      let t ← HM.lift (op.tensordot A [1] [0])
      let a ← HM.alloc t
      newObj ((h.lst (h.obj o).lst).set site a) none : HM ℕ) (fun _ => Frame none h) (Frame none h) := by
    have hE : ∀ h', h' = h → Frame none h h' := fun h' e => by
      rw [e]
      exact Frame.refl hs
    refine (Tri.getItem _ _ hE).bind fun A => ?_
    refine (Tri.lift _ hE).bind fun t => ?_
    intro h' e
    rw [e]
    have hf : Frame none h (newObj ((h.lst (h.obj o).lst).set site h.na) none
        { h with arr := Function.update h.arr h.na t, na := h.na + 1 }).2 := by
      refine ((Frame.refl hs).alloc t).newObj (fun a ha => ?_) none
      rcases List.mem_or_eq_of_mem_set ha with ha | rfl
      · exact lt_trans (hs.cells o ho a ha) (Nat.lt_succ_self _)
      · exact Nat.lt_succ_self _
    exact ⟨fun _ _ => hf, fun _ _ => hf⟩
  have := hT h rfl
  cases hr : ((do
      let A ← HM.getItem o site
      let t ← HM.lift (op.tensordot A [1] [0])
      let a ← HM.alloc t
      newObj ((h.lst (h.obj o).lst).set site a) none : HM ℕ) h).1 with
  | error e => exact this.2 e hr
  | ok a => exact this.1 a hr

/-- C40: one call.  Whether it returns or raises, no array changes, and no object but the receiver of a method that changes its receiver; the heap
stays separate. -/
theorem call_frame (E : Ext) (c : Call) {h : Heap} (hs : Separate h) (hm : ∀ o ∈ c.mentions, o < h.no) :
    Separate (c.run E h) ∧ OnlyChanges c.changes h (c.run E h) := by
  have lift_frame : ∀ {α : Type} {o : ℕ} {p : Py α} {f : α → HM Unit}, o < h.no → (∀ a, p = .ok a → Frame (some o) h (f a h).2) →
      Frame (some o) h ((HM.lift p >>= f) h).2 := by
    intro α o p f ho hf
    rw [hm_bind]
    cases p with
    | error e => exact ⟨hs, le_rfl, fun _ _ => rfl, le_rfl, fun _ _ _ => rfl⟩
    | ok a => exact hf a rfl
  cases c with
  | new data d =>
    obtain ⟨as, h', h1, h2, -, -, h5, -, -, -, -⟩ := allocs_run data (Frame.refl hs)
    show Frame none h (HM.new data d h).2
    unfold HM.new
    rw [hm_bind, h1]
    exact h2.newObj h5 d
  | setItem o m v =>
    exact ((Tri.setItem' m v).weaken (fun _ hi => hi) fun _ _ hi => hi.exc).frame hs (hm o (by simp [Call.mentions]))
  | setAttrs o D cn ot oc n =>
    refine Tri.frame hs (hm o (by simp [Call.mentions])) ?_
    exact Tri.setAttr _ (fun _ => rfl) fun _ => rfl
  | rightOrth o fr upTo =>
    exact ((tri_rightOrth E.rq fr upTo).weaken (fun _ hi => hi) fun _ _ hi => hi.exc).frame hs (hm o (by simp [Call.mentions]))
  | leftOrth o fr upTo =>
    exact ((tri_leftOrth E.qr fr upTo).weaken (fun _ hi => hi) fun _ _ hi => hi.exc).frame hs (hm o (by simp [Call.mentions]))
  | mixedOrth o oc co =>
    have ho := hm o (by simp [Call.mentions])
    exact (tri_mixedOrth E.qr E.rq oc co (hs.short o ho)).frame hs ho
  | postSelect o s w => exact (tri_postSelect s w).frame hs (hm o (by simp [Call.mentions]))
  | matchGaugeTo o o' =>
    exact ((tri_matchGaugeTo E.polar o').weaken (fun _ hi => hi) fun _ _ hi => hi.exc).frame hs (hm o (by simp [Call.mentions]))
  | leftFromState o s =>
    have ho := hm o (by simp [Call.mentions])
    exact lift_frame ho fun y hy => Frame.rebind hs ho y.1 (leftFromState_length hy)
  | rightFromState o s =>
    have ho := hm o (by simp [Call.mentions])
    exact lift_frame ho fun y hy => Frame.rebind hs ho y.1 (rightFromState_length hy)
  | leftCan o D =>
    exact ((tri_leftCan E.svd E.eig D).weaken (fun _ hi => hi) fun _ _ hi => hi.exc).frame hs (hm o (by simp [Call.mentions]))
  | rightCan o D =>
    exact ((tri_rightCan E.svd E.eig D).weaken (fun _ hi => hi) fun _ _ hi => hi.exc).frame hs (hm o (by simp [Call.mentions]))
  | applyTwoSite o op sites which D t =>
    have ho := hm o (by simp [Call.mentions])
    have hsome : ∀ h', Frame none h h' → Frame (some o) h h' := fun h' hf =>
      ⟨hf.1, hf.2.na, hf.2.arr, hf.2.no, fun o' h' _ => hf.2.view o' h' (by simp)⟩
    show Frame (if op.dim 0 = 2 then none else some o) h (HM.applyTwoSite E.qr E.rq E.svd E.order o op sites which D t h).2
    unfold HM.applyTwoSite
    rw [hm_bind]
    cases guardPy (op.dim 0 == op.dim 1) .assertionError with
    | error e =>
      show Frame _ h h
      split
      · exact Frame.refl hs
      · exact hsome h (Frame.refl hs)
    | ok u =>
      show Frame _ h ((if op.dim 0 = 2 then _ else _ : HM ℕ) h).2
      split
      · match sites with
        | [i] => exact apply_frame hs ho op i
        | [] => exact Frame.refl hs
        | _ :: _ :: _ => exact Frame.refl hs
      · match sites with
        | [i, j] =>
          refine Tri.frame hs ho ?_
          refine (Tri.each fun g _ => tri_pairStep E.qr E.rq E.svd E.order which g).bind fun _ => ?_
          exact Tri.ret o
        | [] => exact hsome h (Frame.refl hs)
        | [_] => exact hsome h (Frame.refl hs)
        | _ :: _ :: _ :: _ => exact hsome h (Frame.refl hs)
  | copy o => exact (Frame.refl hs).newObj (hs.cells o (hm o (by simp [Call.mentions]))) none
  | apply o op site => exact apply_frame hs (hm o (by simp [Call.mentions])) op site
  | mul o c =>
    have ho := hm o (by simp [Call.mentions])
    have hc := hs.cells o ho
    show Frame none h (HM.mul o c h).2
    unfold HM.mul
    rw [hm_bind]
    show Frame none h ((match h.lst (h.obj o).lst with
      | [] => newObj [] none
      | a :: cs => _ : HM ℕ) h).2
    cases hl : h.lst (h.obj o).lst with
    | nil => exact (Frame.refl hs).newObj (fun a ha => by cases ha) none
    | cons a cs =>
      refine ((Frame.refl hs).alloc ((h.arr a).smul c)).newObj (cells := h.na :: cs) (fun b hb => ?_) none
      rcases List.mem_cons.mp hb with rfl | hb
      · exact Nat.lt_succ_self _
      · exact lt_trans (hc b (by rw [hl]; exact List.mem_cons_of_mem _ hb)) (Nat.lt_succ_self _)
  | append o v =>
    have hc := hs.cells o (hm o (by simp [Call.mentions]))
    refine ((Frame.refl hs).alloc v).newObj (cells := h.lst (h.obj o).lst ++ [h.na]) (fun b hb => ?_) none
    rcases List.mem_append.mp hb with hb | hb
    · exact lt_trans (hc b hb) (Nat.lt_succ_self _)
    · rw [List.mem_singleton.mp hb]
      exact Nat.lt_succ_self _
  | extend o o' =>
    have hc := hs.cells o (hm o (by simp [Call.mentions]))
    have hc' := hs.cells o' (hm o' (by simp [Call.mentions]))
    refine (Frame.refl hs).newObj (cells := h.lst (h.obj o).lst ++ h.lst (h.obj o').lst) (fun b hb => ?_) none
    rcases List.mem_append.mp hb with hb | hb
    · exact hc b hb
    · exact hc' b hb

/-- C40: every history.  An object that is not the receiver of a method that changes its receiver keeps its value, and no array that exists
changes. -/
theorem history_frame (E : Ext) : ∀ (cs : List Call) {h : Heap}, Separate h → Valid E cs h →
    Separate (runs E cs h) ∧ h.na ≤ (runs E cs h).na ∧ h.no ≤ (runs E cs h).no ∧ (∀ a < h.na, (runs E cs h).arr a = h.arr a) ∧
      ∀ o < h.no, (∀ c ∈ cs, c.changes ≠ some o) → (runs E cs h).view o = h.view o
  | [], h, hs, _ => ⟨hs, le_rfl, le_rfl, fun _ _ => rfl, fun _ _ _ => rfl⟩
  | c :: cs, h, hs, hv => by
    obtain ⟨h1, h2⟩ := call_frame E c hs hv.1
    obtain ⟨i1, i2, i3, i4, i5⟩ := history_frame E cs h1 hv.2
    refine ⟨i1, le_trans h2.na i2, le_trans h2.no i3, fun a ha => ?_, fun o ho hc => ?_⟩
    · exact (i4 a (lt_of_lt_of_le ha h2.na)).trans (h2.arr a ha)
    · exact (i5 o (lt_of_lt_of_le ho h2.no) fun c' hc' => hc c' (List.mem_cons_of_mem _ hc')).trans (h2.view o ho (hc c (by simp)))

theorem separate_empty : Separate Heap.empty :=
  ⟨fun _ ho => absurd ho (Nat.not_lt_zero _), fun _ ho => absurd ho (Nat.not_lt_zero _), fun _ ho => absurd ho (Nat.not_lt_zero _),
    fun _ ho => absurd ho (Nat.not_lt_zero _)⟩

/-- C40: every heap that a program can reach is separate. -/
theorem reachable_separate (E : Ext) (cs : List Call) (hv : Valid E cs Heap.empty) : Separate (runs E cs Heap.empty) :=
  (history_frame E cs separate_empty hv).1

theorem newObj_view {cells : List ℕ} {d : Option ℕ} {h h' : Heap} {o : ℕ} (hr : newObj cells d h = (.ok o, h')) :
    o = h.no ∧ FMPS.init (cells.map h.arr) d = .ok (h'.view o) := by
  rw [newObj_run] at hr
  cases hy : FMPS.init (cells.map h.arr) d with
  | error e => rw [hy] at hr; cases hr
  | ok y =>
    rw [hy] at hr
    cases hr
    refine ⟨rfl, congrArg Except.ok ?_⟩
    unfold Heap.view
    simp only [Function.update_self]
    exact init_val' hy

/-- C40: `x.copy()` is a new object with the tensors of `x`; whatever is then done with the copy, or with other objects, `x` keeps its value, and
whatever is done with `x` the copy keeps its value. -/
theorem copies_independent (E : Ext) (cs : List Call) (hv : Valid E cs Heap.empty) {x y : ℕ} {h' : Heap}
    (hx : x < (runs E cs Heap.empty).no) (hcopy : HM.copy x (runs E cs Heap.empty) = (.ok y, h')) :
    y ≠ x ∧ (h'.view y).data = ((runs E cs Heap.empty).view x).data ∧ h'.view x = (runs E cs Heap.empty).view x ∧
      (∀ cs', Valid E cs' h' → (∀ c ∈ cs', c.changes ≠ some x) → (runs E cs' h').view x = (runs E cs Heap.empty).view x) ∧
      ∀ cs', Valid E cs' h' → (∀ c ∈ cs', c.changes ≠ some y) → (runs E cs' h').view y = h'.view y := by
  have hs := reachable_separate E cs hv
  set h := runs E cs Heap.empty with hh
  obtain ⟨hy, hi⟩ := newObj_view (show newObj (h.lst (h.obj x).lst) none h = (.ok y, h') from hcopy)
  have hrun : (Call.copy x).run E h = h' := by
    show (HM.copy x h).2 = h'
    rw [hcopy]
  obtain ⟨f1, f2⟩ := call_frame E (.copy x) hs fun o ho => by
    rw [List.mem_singleton.mp ho]
    exact hx
  rw [hrun] at f1 f2
  have hno : h'.no = h.no + 1 := by
    have := hcopy
    rw [show HM.copy x h = newObj (h.lst (h.obj x).lst) none h from rfl, newObj_run] at this
    cases hy : FMPS.init ((h.lst (h.obj x).lst).map h.arr) none with
    | error e => rw [hy] at this; cases this
    | ok z => rw [hy] at this; cases this; rfl
  have hvx : h'.view x = h.view x := f2.view x hx (by simp [Call.changes])
  refine ⟨by omega, ?_, hvx, fun cs' hv' hc => ?_, fun cs' hv' hc => ?_⟩
  · rw [init_val hi]
    rfl
  · rw [← hvx]
    exact (history_frame E cs' f1 hv').2.2.2.2 x (by omega) hc
  · exact (history_frame E cs' f1 hv').2.2.2.2 y (by omega) hc

/-- C40: `x.apply((op, site))` returns a new object, the one of the model on values, and keeps `x`. -/
theorem apply_new (E : Ext) (cs : List Call) (hv : Valid E cs Heap.empty) {x : ℕ} (hx : x < (runs E cs Heap.empty).no) (op : ND ℂ) (site : ℕ) :
    ((HM.apply x op site (runs E cs Heap.empty)).2).view x = (runs E cs Heap.empty).view x ∧
      (∀ e, ((runs E cs Heap.empty).view x).apply op site = .error e → (HM.apply x op site (runs E cs Heap.empty)).1 = .error e) ∧
      ∀ z, ((runs E cs Heap.empty).view x).apply op site = .ok z → ∃ y h', HM.apply x op site (runs E cs Heap.empty) = (.ok y, h') ∧
        y ≠ x ∧ h'.view y = z := by
  have hs := reachable_separate E cs hv
  set h := runs E cs Heap.empty with hh
  have hdata : (h.view x).data = (h.lst (h.obj x).lst).map h.arr := rfl
  have hrun : HM.apply x op site h = match pyGet (h.view x).data site >>= fun A => op.tensordot A [1] [0] with
      | .error e => (.error e, h)
      | .ok t => newObj ((h.lst (h.obj x).lst).set site h.na) none { h with arr := Function.update h.arr h.na t, na := h.na + 1 } := by
    show (HM.getItem x site >>= fun A => HM.lift (op.tensordot A [1] [0]) >>= fun t => HM.alloc t >>= fun a =>
      newObj ((h.lst (h.obj x).lst).set site a) none : HM ℕ) h = _
    have hg : HM.getItem x site h = (pyGet (h.view x).data site, h) := by
      unfold HM.getItem
      simp only [hm_bind, HM.cell, hdata]
      unfold pyGet
      rw [List.getElem?_map]
      cases (h.lst (h.obj x).lst)[site]? <;> rfl
    rw [hm_bind, hg]
    cases pyGet (h.view x).data site with
    | error e => rfl
    | ok A =>
      simp only [ok_bind]
      rw [hm_bind]
      cases op.tensordot A [1] [0] <;> rfl
  have hmap : ∀ t, ((h.lst (h.obj x).lst).set site h.na).map (Function.update h.arr h.na t) = (h.view x).data.set site t := by
    intro t
    rw [List.map_set, Function.update_self, hdata]
    congr 1
    refine List.map_congr_left fun a ha => ?_
    rw [Function.update_of_ne (hs.cells x hx a ha).ne]
  refine ⟨(apply_frame hs hx op site).2.view x hx (by simp), fun e he => ?_, fun z hz => ?_⟩
  · rw [hrun]
    unfold FMPS.apply at he
    cases hA : pyGet (h.view x).data site with
    | error e' =>
      rw [hA] at he
      cases he
      rfl
    | ok A =>
      rw [hA] at he
      simp only [ok_bind] at he ⊢
      cases ht : op.tensordot A [1] [0] with
      | error e' =>
        rw [ht] at he
        cases he
        rfl
      | ok t =>
        rw [ht] at he
        simp only [ok_bind] at he ⊢
        rw [newObj_run]
        simp only [hmap, he]
  · rw [hrun]
    unfold FMPS.apply at hz
    obtain ⟨A, hA, hz⟩ := bind_eq_ok hz
    obtain ⟨t, ht, hz⟩ := bind_eq_ok hz
    rw [hA]
    simp only [ok_bind, ht]
    rw [newObj_run]
    simp only [hmap, hz]
    refine ⟨h.no, _, rfl, by omega, ?_⟩
    unfold Heap.view
    simp only [Function.update_self]
    rw [hmap]
    exact (init_val' hz).symm

/-! ### the methods that change the receiver compute what the models on values compute -/

theorem Sim.refines {o : ℕ} {I J : Heap → Prop} {m : HM Unit} {p : FMPS ℂ → Py (FMPS ℂ)}
    (hm : Sim o I m (fun x => p x >>= fun y => .ok ((), y)) J) {h : Heap} (hI : I h) : Refines m p h o := by
  obtain ⟨h1, h2⟩ := hm h hI
  refine ⟨fun y hy => ?_, fun e he => h2 e (by simp [he])⟩
  obtain ⟨e1, e2, -⟩ := h1 ((), y) (by simp [hy])
  exact ⟨e1, e2⟩

theorem Spec.Separate.good {h : Heap} (hs : Separate h) {o : ℕ} (ho : o < h.no) : Good o (fun _ => False) h :=
  ⟨hs.cells o ho, fun _ _ hm => hm.elim⟩

/-- C40: `right_orthogonalise`, `left_orthogonalise`, `mixed_orthogonalise`, `post_select` on an object of a separate heap, for shared arrays too,
compute what the models on values compute. -/
theorem orthogonalise_refines (E : Ext) {h : Heap} (hs : Separate h) {o : ℕ} (ho : o < h.no) :
    (∀ fr upTo, Refines (HM.rightOrth E.rq o fr upTo) (fun x => x.rightOrthogonalise E.rq fr upTo) h o) ∧
    (∀ fr upTo, Refines (HM.leftOrth E.qr o fr upTo) (fun x => x.leftOrthogonalise E.qr fr upTo) h o) ∧
    (∀ oc < (h.obj o).L, ∀ c, Refines (HM.mixedOrth E.qr E.rq o oc c) (fun x => x.mixedOrthogonalise E.qr E.rq oc c) h o) ∧
    ∀ site which, Refines (HM.postSelect o site which) (fun x => x.postSelect site which) h o :=
  ⟨fun fr upTo => (sim_rightOrth E.rq fr upTo).refines (hs.good ho), fun fr upTo => (sim_leftOrth E.qr fr upTo).refines (hs.good ho),
    fun oc hoc c => (sim_mixedOrth E.qr E.rq oc c).refines ⟨hs.good ho, hoc⟩, fun site which => (sim_postSelect site which).refines (hs.good ho)⟩

/-- C40: `apply_two_site` with an operator on two sites changes the receiver as the model on values does. -/
theorem applyTwoSite_refines (E : Ext) {h : Heap} (hs : Separate h) {o : ℕ} (ho : o < h.no) (op : ND ℂ) (hop : op.dim 0 ≠ 2) (sites : List ℕ)
    (which : Side) (D : Option ℕ) (t : Bool) :
    Refines (HM.applyTwoSite E.qr E.rq E.svd E.order o op sites which D t >>= fun _ => pure ())
      (fun x => x.applyTwoSite E.qr E.rq E.svd E.order op sites which D t) h o := by
  refine Sim.refines (I := Good o fun _ => False) (J := Good o fun _ => False) ?_ (hs.good ho)
  unfold HM.applyTwoSite FMPS.applyTwoSite
  simp only [if_neg hop]
  match sites with
  | [i, j] =>
    apply Sim.congr
    · apply Sim.bind
      · apply (Sim.lift _).bind
        intro _
        apply (Sim.each (p := FMPS.pairStep E.qr E.rq E.svd E.order which) fun g _ => sim_pairStep E.qr E.rq E.svd E.order which g).bind
        intro _
        exact Sim.ret o
      · intro _
        exact Sim.ret ()
    · intro x
      cases guardPy (op.dim 0 == op.dim 1) .assertionError with
      | error e => simp
      | ok u =>
        simp only [ok_bind]
        generalize (FMPS.gateList op (min i j) (max i j) D (if t then D else none)).foldlM (FMPS.pairStep E.qr E.rq E.svd E.order which) x = r
        cases r <;> rfl
  | [] | [_] | _ :: _ :: _ :: _ =>
    apply Sim.congr
    · apply Sim.bind
      · apply (Sim.lift _).bind
        intro _
        exact Sim.lift _
      · intro _
        exact Sim.ret ()
    · intro x
      cases guardPy (op.dim 0 == op.dim 1) .assertionError <;> simp

/-! ### sharing a list -/

/-- C40: `fMPS(x.data)` is no copy: it refers to the list of `x`, and an assignment to one of its tensors is an assignment to that of `x`. -/
theorem alias_changes {h h' : Heap} {x y m : ℕ} (hx : x < h.no) (ha : HM.aliasOf x h = (.ok y, h')) (hm : m < (h.view x).data.length) (v : ND ℂ) :
    y ≠ x ∧ (HM.setItem y m v h').1 = .ok () ∧ ((HM.setItem y m v h').2.view x).data[m]? = some v := by
  unfold HM.aliasOf at ha
  cases hi : FMPS.init (h.view x).data with
  | error e => rw [hi] at ha; cases ha
  | ok z =>
    rw [hi] at ha
    cases ha
    have hm' : m < (h.lst (h.obj x).lst).length := by simpa [Heap.view] using hm
    have hne : x ≠ h.no := hx.ne
    refine ⟨hx.ne', ?_, ?_⟩
    · rw [setItem_run]
      simp only [Function.update_self, hm', if_true]
    · rw [setItem_run]
      simp only [Function.update_self, hm', if_true, Heap.view, Function.update_of_ne hne, List.getElem?_map, List.getElem?_set]
      simp

/-! ### examples: two tensors of ones, in a list -/

/-- two sites, two states each, bonds 1, 2, 1 -/
def exPair2 : List (ND ℂ) := [onesND [2, 1, 2], onesND [2, 2, 1]]

theorem exPair2_init : FMPS.init exPair2 none = .ok { data := exPair2, L := 2, d := 2, D := 2 } := rfl

/-- the heap after `x = fMPS([A, B])` -/
theorem exPair2_run (E : Ext) : (runs E [.new exPair2 none] Heap.empty).no = 1 ∧ (runs E [.new exPair2 none] Heap.empty).view 0 =
    { data := exPair2, L := 2, d := 2, D := 2 } := ⟨rfl, rfl⟩

/-- `copies_independent`: a copy of a two site state, then `mixed_orthogonalise` and a two site operator on the copy -/
example (E : Ext) : ∃ h', Valid E [.new exPair2 none] Heap.empty ∧ 0 < (runs E [.new exPair2 none] Heap.empty).no ∧
    HM.copy 0 (runs E [.new exPair2 none] Heap.empty) = (.ok 1, h') ∧
    ∀ op D, Valid E [.mixedOrth 1 1 none, .applyTwoSite 1 op [0, 1] .l D false, .setItem 1 0 (onesND [2, 1, 1])] h' ∧
      ∀ c ∈ [Call.mixedOrth 1 1 none, .applyTwoSite 1 op [0, 1] .l D false, .setItem 1 0 (onesND [2, 1, 1])], c.changes ≠ some 0 := by
  have hv : Valid E [.new exPair2 none] Heap.empty := ⟨fun o ho => (by simp [Call.mentions] at ho), trivial⟩
  have hs := reachable_separate E _ hv
  refine ⟨_, hv, by rw [(exPair2_run E).1]; decide, rfl, fun op D => ⟨?_, ?_⟩⟩
  · have h0 : (HM.copy 0 (runs E [.new exPair2 none] Heap.empty)).2.no = 2 := rfl
    have s0 := (call_frame E (.copy 0) hs fun o ho => by
      rw [List.mem_singleton.mp ho, (exPair2_run E).1]
      decide).1
    have v1 : ∀ o ∈ (Call.mixedOrth 1 1 none).mentions, o < (HM.copy 0 (runs E [.new exPair2 none] Heap.empty)).2.no := fun o ho => by
      rw [List.mem_singleton.mp ho, h0]
      decide
    obtain ⟨s1, f1⟩ := call_frame E (.mixedOrth 1 1 none) s0 v1
    have v2 : ∀ o ∈ (Call.applyTwoSite 1 op [0, 1] .l D false).mentions,
        o < ((Call.mixedOrth 1 1 none).run E (HM.copy 0 (runs E [.new exPair2 none] Heap.empty)).2).no := fun o ho => by
      rw [List.mem_singleton.mp ho]
      exact lt_of_lt_of_le (show 1 < 2 by decide) f1.no
    obtain ⟨-, f2⟩ := call_frame E (.applyTwoSite 1 op [0, 1] .l D false) s1 v2
    refine ⟨v1, v2, fun o ho => ?_, trivial⟩
    rw [List.mem_singleton.mp ho]
    exact lt_of_lt_of_le (show 1 < 2 by decide) (le_trans f1.no f2.no)
  · intro c hc
    simp only [List.mem_cons, List.not_mem_nil, or_false] at hc
    rcases hc with rfl | rfl | rfl
    · simp [Call.changes]
    · unfold Call.changes
      simp only
      split <;> simp
    · simp [Call.changes]

/-- `apply_new`: an operator on the second site -/
example (E : Ext) : ∃ z, ((runs E [.new exPair2 none] Heap.empty).view 0).apply (eyeND 2) 1 = .ok z := ⟨_, rfl⟩

/-- `orthogonalise_refines`: with two sites `mixed_orthogonalise(1)` is within its hypothesis -/
example (E : Ext) : 1 < ((runs E [.new exPair2 none] Heap.empty).obj 0).L := by
  show 1 < 2
  decide

/-- `alias_changes`: the alias of a two site state -/
example (E : Ext) : ∃ h', HM.aliasOf 0 (runs E [.new exPair2 none] Heap.empty) = (.ok 1, h') ∧
    1 < ((runs E [.new exPair2 none] Heap.empty).view 0).data.length := ⟨_, rfl, by rw [(exPair2_run E).2]; decide⟩

end Xmps
