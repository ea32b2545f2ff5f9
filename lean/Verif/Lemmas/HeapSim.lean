import Verif.Lemmas.Heap

/-!
# The heap model computes what the models on values compute
-/

namespace Xmps

open HM

/-- the computation `m` on the heap does on the object `o` what `p` does on values -/
def Sim {α : Type} (o : ℕ) (I : Heap → Prop) (m : HM α) (p : FMPS ℂ → Py (α × FMPS ℂ)) (J : Heap → Prop) : Prop :=
  ∀ h, I h → (∀ r, p (h.view o) = .ok r → (m h).1 = .ok r.1 ∧ (m h).2.view o = r.2 ∧ J (m h).2) ∧
    ∀ e, p (h.view o) = .error e → (m h).1 = .error e

section
variable {α β : Type} {o : ℕ} {I J K : Heap → Prop}

theorem Sim.bind {m : HM α} {f : α → HM β} {p : FMPS ℂ → Py (α × FMPS ℂ)} {q : α → FMPS ℂ → Py (β × FMPS ℂ)} (hm : Sim o I m p J)
    (hf : ∀ a, Sim o J (f a) (q a) K) : Sim o I (m >>= f) (fun x => p x >>= fun r => q r.1 r.2) K := by
  intro h hI
  obtain ⟨h1, h2⟩ := hm h hI
  rw [hm_bind]
  rcases hr : m h with ⟨r, h'⟩
  rw [hr] at h1 h2
  cases hp : p (h.view o) with
  | error e =>
    have := h2 e hp
    simp only at this
    subst this
    refine ⟨fun r hr => ?_, fun e' he => ?_⟩
    · simp [hp] at hr
    · simpa [hp] using he
  | ok s =>
    obtain ⟨e1, e2, e3⟩ := h1 s hp
    simp only at e1 e2 e3
    subst e1
    have := hf s.1 h' e3
    rw [e2] at this
    simp only [hp, ok_bind]
    exact this

theorem Sim.congr {m : HM α} {p q : FMPS ℂ → Py (α × FMPS ℂ)} (hm : Sim o I m p J) (h : ∀ x, p x = q x) : Sim o I m q J := by
  have : p = q := funext h
  rwa [this] at hm

theorem Sim.ret (a : α) : Sim o I (pure a : HM α) (fun x => .ok (a, x)) I :=
  fun h hI => ⟨fun r hr => by cases hr; exact ⟨rfl, rfl, hI⟩, fun e he => by cases he⟩

theorem Sim.lift (p : Py α) : Sim o I (HM.lift p) (fun x => p >>= fun a => .ok (a, x)) I := by
  intro h hI
  cases p with
  | error e => exact ⟨fun r hr => (by cases hr), fun e' he => by cases he; rfl⟩
  | ok a => exact ⟨fun r hr => by cases hr; exact ⟨rfl, rfl, hI⟩, fun e he => by cases he⟩

theorem Sim.attrL : Sim o I (HM.attr o Obj.L) (fun x => .ok (x.L, x)) I :=
  fun h hI => ⟨fun r hr => by cases hr; exact ⟨rfl, rfl, hI⟩, fun e he => by cases he⟩

theorem Sim.getItem (m : ℕ) : Sim o I (HM.getItem o m) (fun x => pyGet x.data m >>= fun a => .ok (a, x)) I := by
  intro h hI
  have hv : (h.view o).data = (h.lst (h.obj o).lst).map h.arr := rfl
  have hr : HM.getItem o m h = (pyGet (h.view o).data m, h) := by
    unfold HM.getItem
    simp only [hm_bind, HM.cell, hv]
    unfold pyGet
    rw [List.getElem?_map]
    cases (h.lst (h.obj o).lst)[m]? <;> rfl
  rw [hr]
  beta_reduce
  generalize pyGet (h.view o).data m = p
  cases p with
  | error e => exact ⟨fun r hr => (by cases hr), fun e' he => by cases he; rfl⟩
  | ok a => exact ⟨fun r hr => (by cases hr; exact ⟨rfl, rfl, hI⟩), fun e' he => by cases he⟩

theorem Sim.ite {c : Prop} [Decidable c] {m n : HM α} {p q : FMPS ℂ → Py (α × FMPS ℂ)} (h1 : Sim o I m p J) (h2 : Sim o I n q J) :
    Sim o I (if c then m else n) (fun x => if c then p x else q x) J := by
  split
  · exact h1
  · exact h2

theorem Sim.each {γ : Type} {f : γ → HM Unit} {p : FMPS ℂ → γ → Py (FMPS ℂ)} {l : List γ}
    (hf : ∀ m ∈ l, Sim o I (f m) (fun x => p x m >>= fun y => .ok ((), y)) I) :
    Sim o I (each f l) (fun x => l.foldlM p x >>= fun y => .ok ((), y)) I := by
  induction l with
  | nil => exact Sim.ret ()
  | cons m l ih =>
    refine ((hf m (by simp)).bind fun _ => ih fun k hk => hf k (by simp [hk])).congr fun x => ?_
    rw [List.foldlM_cons]
    cases p x m <;> rfl

theorem Sim.weaken {I' J' : Heap → Prop} {m : HM α} {p : FMPS ℂ → Py (α × FMPS ℂ)} (hm : Sim o I m p J) (h1 : ∀ h, I' h → I h)
    (h2 : ∀ h, J h → J' h) : Sim o I' m p J' :=
  fun h hI => ⟨fun r hr => ⟨((hm h (h1 h hI)).1 r hr).1, ((hm h (h1 h hI)).1 r hr).2.1, h2 _ ((hm h (h1 h hI)).1 r hr).2.2⟩, (hm h (h1 h hI)).2⟩

end

/-- the references of `o` are valid, and the arrays in the cells in `S` are in no other cell -/
structure Good (o : ℕ) (S : ℕ → Prop) (h : Heap) : Prop where
  cells : ∀ a ∈ h.lst (h.obj o).lst, a < h.na
  once : ∀ m k, S m → m ≠ k → ∀ a, (h.lst (h.obj o).lst)[m]? = some a → (h.lst (h.obj o).lst)[k]? ≠ some a

section
variable {o : ℕ} {S S' : ℕ → Prop}

theorem Good.mono {h : Heap} (hg : Good o S h) (hS : ∀ m, S' m → S m) : Good o S' h :=
  ⟨hg.cells, fun m k hm => hg.once m k (hS m hm)⟩

theorem Sim.setItem (m : ℕ) (v : ND ℂ) : Sim o (Good o S) (HM.setItem o m v)
    (fun x => if m < x.data.length then .ok ((), { x with data := x.data.set m v }) else .error .indexError)
    (Good o fun k => S k ∨ k = m) := by
  intro h hg
  have hlen : (h.view o).data.length = (h.lst (h.obj o).lst).length := List.length_map _
  beta_reduce
  rw [setItem_run, hlen]
  split
  · rename_i hm
    refine ⟨fun r hr => ?_, fun e he => by cases he⟩
    cases hr
    refine ⟨rfl, ?_, ⟨fun a ha => ?_, fun i k hi hik a ha => ?_⟩⟩
    · unfold Heap.view
      simp only [Function.update_self]
      congr 1
      apply List.ext_getElem?
      intro i
      simp only [List.getElem?_map, List.getElem?_set, List.length_map]
      by_cases hi : m = i
      · subst hi
        simp [hm]
      · rw [if_neg hi, if_neg hi]
        cases hc : (h.lst (h.obj o).lst)[i]? with
        | none => rfl
        | some a =>
          have := hg.cells a (List.mem_of_getElem? hc)
          simp only [Option.map_some]
          rw [Function.update_of_ne (by omega)]
    · change a ∈ Function.update h.lst _ _ _ at ha
      rw [Function.update_self] at ha
      rcases List.mem_or_eq_of_mem_set ha with ha | rfl
      · exact lt_trans (hg.cells a ha) (Nat.lt_succ_self _)
      · exact Nat.lt_succ_self _
    · change (Function.update h.lst _ _ _)[i]? = _ at ha
      show (Function.update h.lst _ _ _)[k]? ≠ _
      rw [Function.update_self, List.getElem?_set] at ha ⊢
      by_cases hmi : m = i
      · subst hmi
        rw [if_pos rfl, if_pos hm] at ha
        cases ha
        rw [if_neg hik]
        intro hk
        exact lt_irrefl _ (hg.cells _ (List.mem_of_getElem? hk))
      · rw [if_neg hmi] at ha
        by_cases hmk : m = k
        · subst hmk
          rw [if_pos rfl, if_pos hm]
          intro hk
          cases hk
          exact lt_irrefl _ (hg.cells _ (List.mem_of_getElem? ha))
        · rw [if_neg hmk]
          rcases hi with hi | hi
          · exact hg.once i k hi hik a ha
          · exact absurd hi.symm hmi
  · exact ⟨fun r hr => (by cases hr), fun e he => by cases he; rfl⟩

theorem Sim.setItem' (m : ℕ) (v : ND ℂ) : Sim o (Good o S) (HM.setItem o m v)
    (fun x => if m < x.data.length then .ok ((), { x with data := x.data.set m v }) else .error .indexError) (Good o S) :=
  (Sim.setItem m v).weaken (fun _ hg => hg) fun _ hg => hg.mono fun _ hk => Or.inl hk

theorem Sim.writeItem (m : ℕ) (v : ND ℂ) (hS : S m) : Sim o (Good o S) (HM.writeItem o m v)
    (fun x => if m < x.data.length then .ok ((), { x with data := x.data.set m v }) else .error .indexError) (Good o S) := by
  intro h hg
  have hlen : (h.view o).data.length = (h.lst (h.obj o).lst).length := List.length_map _
  beta_reduce
  rw [hlen]
  by_cases hm : m < (h.lst (h.obj o).lst).length
  · obtain ⟨a, ha⟩ : ∃ a, (h.lst (h.obj o).lst)[m]? = some a := ⟨_, List.getElem?_eq_getElem hm⟩
    have hset : (h.lst (h.obj o).lst).set m a = h.lst (h.obj o).lst := by
      apply List.ext_getElem?
      intro k
      rw [List.getElem?_set]
      split
      · subst_vars
        simpa [hm] using ha.symm
      · rfl
    have hr : HM.writeItem o m v h = (.ok (), { h with arr := Function.update h.arr a v }) := by
      unfold HM.writeItem
      have hp : pyGet (h.lst (h.obj o).lst) m = .ok a := by simp [pyGet, ha]
      simp only [hm_bind, HM.cell, hp, poke, HM.setCell, hm, if_true, hset, Function.update_eq_self]
    rw [hr, if_pos hm]
    refine ⟨fun r hr => ?_, fun e he => by cases he⟩
    cases hr
    refine ⟨rfl, ?_, ⟨hg.cells, hg.once⟩⟩
    unfold Heap.view
    simp only
    congr 1
    apply List.ext_getElem?
    intro i
    simp only [List.getElem?_map, List.getElem?_set, List.length_map]
    by_cases hi : m = i
    · subst hi
      rw [if_pos rfl, if_pos hm, ha, Option.map_some, Function.update_self]
    · rw [if_neg hi]
      cases hc : (h.lst (h.obj o).lst)[i]? with
      | none => rfl
      | some b =>
        simp only [Option.map_some]
        rw [Function.update_of_ne]
        rintro rfl
        exact hg.once m i hS hi _ ha hc
  · have hp : pyGet (h.lst (h.obj o).lst) m = .error .indexError := by simp [pyGet, List.getElem?_eq_none (not_lt.mp hm)]
    have hr : HM.writeItem o m v h = (.error .indexError, h) := by
      unfold HM.writeItem
      simp only [hm_bind, HM.cell, hp]
    rw [hr, if_neg hm]
    exact ⟨fun r hr => (by cases hr), fun e he => by cases he; rfl⟩

theorem Sim.setAttr (f : Obj → Obj) (g : FMPS ℂ → FMPS ℂ) (hl : ∀ ob, (f ob).lst = ob.lst)
    (hg : ∀ ob data, ({ data := data, L := (f ob).L, d := (f ob).d, D := (f ob).D, canonical := (f ob).canonical
                        orthogonal := (f ob).orthogonal, oc := (f ob).oc, norm_ := (f ob).norm_ } : FMPS ℂ) =
      g { data := data, L := ob.L, d := ob.d, D := ob.D, canonical := ob.canonical, orthogonal := ob.orthogonal, oc := ob.oc, norm_ := ob.norm_ }) :
    Sim o (Good o S) (HM.setAttr o f) (fun x => .ok ((), g x)) (Good o S) := by
  intro h hG
  refine ⟨fun r hr => ?_, fun e he => by cases he⟩
  cases hr
  refine ⟨rfl, ?_, ⟨?_, ?_⟩⟩
  · unfold Heap.view HM.setAttr
    simp only [Function.update_self, hl]
    exact hg (h.obj o) _
  · unfold HM.setAttr
    simp only [Function.update_self, hl]
    exact hG.cells
  · unfold HM.setAttr
    simp only [Function.update_self, hl]
    exact hG.once

theorem Sim.delCell (m : ℕ) : Sim o (Good o S) (HM.delCell o m)
    (fun x => if m < x.data.length then .ok ((), { x with data := x.data.eraseIdx m }) else .error .indexError)
    (Good o fun _ => False) := by
  intro h hg
  have hlen : (h.view o).data.length = (h.lst (h.obj o).lst).length := List.length_map _
  beta_reduce
  rw [hlen]
  unfold HM.delCell
  split
  · refine ⟨fun r hr => ?_, fun e he => by cases he⟩
    cases hr
    refine ⟨rfl, ?_, ⟨fun a ha => ?_, fun _ _ hS => hS.elim⟩⟩
    · unfold Heap.view
      simp only [Function.update_self]
      rw [List.eraseIdx_map]
    · change a ∈ Function.update h.lst _ _ _ at ha
      rw [Function.update_self] at ha
      exact hg.cells a (List.mem_of_mem_eraseIdx ha)
  · exact ⟨fun r hr => (by cases hr), fun e he => by cases he; rfl⟩

/-! ### the methods -/

variable (qr rq polar : ND ℂ → Py (ND ℂ × ND ℂ)) (svd : Svd) (eig : Eig) (O : Ncon.SetOrder)

theorem pyGet_lt {α : Type} {l : List α} {m : ℕ} {a : α} (h : pyGet l m = .ok a) : m < l.length := by
  by_contra hm
  simp [pyGet, List.getElem?_eq_none (not_lt.mp hm)] at h

theorem sim_rightStep (m : ℕ) : Sim o (Good o S) (HM.rightStep rq o m) (fun x => x.rightStep rq m >>= fun y => .ok ((), y))
    (Good o fun k => S k ∨ k = m) := by
  unfold HM.rightStep
  apply Sim.congr
  · apply (Sim.getItem m).bind
    intro T
    apply (Sim.lift _).bind
    intro g
    apply (Sim.lift _).bind
    intro RQ
    apply (Sim.lift _).bind
    intro Q'
    apply (Sim.setItem m Q').bind
    intro _
    apply Sim.ite
    · apply (Sim.getItem (m - 1)).bind
      intro B
      apply (Sim.lift _).bind
      intro t
      exact Sim.setItem' (m - 1) t
    · exact Sim.setAttr _ (fun x => { x with norm_ := some RQ.1 }) (fun _ => rfl) fun _ _ => rfl
  intro x
  unfold FMPS.rightStep
  cases hT : pyGet x.data m with
  | error e => simp
  | ok T =>
    have hm := pyGet_lt hT
    simp only [ok_bind]
    cases groupLegs T [[1], [0, 2]] with
    | error e => simp
    | ok g =>
      simp only [ok_bind]
      cases rq g.1 with
      | error e => simp
      | ok RQ =>
        simp only [ok_bind]
        cases ungroupLegs RQ.2 g.2 with
        | error e => simp
        | ok Q' =>
          simp only [ok_bind, hm, if_true]
          by_cases h0 : m ≠ 0
          · simp only [if_pos h0]
            cases hB : pyGet (x.data.set m Q') (m - 1) with
            | error e => simp
            | ok B =>
              have := pyGet_lt hB
              simp only [ok_bind]
              cases B.matmul RQ.1 with
              | error e => simp
              | ok t => simp only [ok_bind, this, if_true]
          · simp only [if_neg h0]
            simp

theorem sim_leftStep (m : ℕ) : Sim o (Good o S) (HM.leftStep qr o m) (fun x => x.leftStep qr m >>= fun y => .ok ((), y)) (Good o S) := by
  unfold HM.leftStep
  apply Sim.congr
  · apply (Sim.getItem m).bind
    intro T
    apply (Sim.lift _).bind
    intro g
    apply (Sim.lift _).bind
    intro QR
    apply (Sim.lift _).bind
    intro Q'
    apply (Sim.setItem' m Q').bind
    intro _
    apply Sim.attrL.bind
    intro L
    apply Sim.ite
    · apply (Sim.getItem (m + 1)).bind
      intro B
      apply (Sim.lift _).bind
      intro t
      exact Sim.setItem' (m + 1) t
    · exact Sim.setAttr _ (fun x => { x with norm_ := some QR.2 }) (fun _ => rfl) fun _ _ => rfl
  intro x
  unfold FMPS.leftStep
  cases hT : pyGet x.data m with
  | error e => simp
  | ok T =>
    have hm := pyGet_lt hT
    simp only [ok_bind]
    cases groupLegs T [[0, 1], [2]] with
    | error e => simp
    | ok g =>
      simp only [ok_bind]
      cases qr g.1 with
      | error e => simp
      | ok QR =>
        simp only [ok_bind]
        cases ungroupLegs QR.1 g.2 with
        | error e => simp
        | ok Q' =>
          simp only [ok_bind, hm, if_true]
          by_cases h0 : m + 1 ≠ x.L
          · simp only [if_pos h0]
            cases hB : pyGet (x.data.set m Q') (m + 1) with
            | error e => simp
            | ok B =>
              have := pyGet_lt hB
              simp only [ok_bind]
              cases QR.2.matmul B with
              | error e => simp
              | ok t => simp only [ok_bind, this, if_true]
          · simp only [if_neg h0]
            simp

theorem sim_rightOrth (fr : ℕ) (upTo : Option ℕ) : Sim o (Good o S) (HM.rightOrth rq o fr upTo)
    (fun x => x.rightOrthogonalise rq fr upTo >>= fun y => .ok ((), y)) (Good o S) := by
  unfold HM.rightOrth
  apply Sim.congr
  · apply Sim.attrL.bind
    intro L
    apply (Sim.each (p := FMPS.rightStep rq) fun m _ =>
      (sim_rightStep rq m).weaken (fun _ hg => hg) fun _ hg => hg.mono fun _ hk => Or.inl hk).bind
    intro _
    apply Sim.ite
    · exact Sim.setAttr _ (fun x => { x with orthogonal := true, oc := some 0 }) (fun _ => rfl) fun _ _ => rfl
    · exact Sim.ret ()
  intro x
  unfold FMPS.rightOrthogonalise
  simp only [ok_bind]
  cases (List.range' fr (upTo.getD x.L - fr)).reverse.foldlM (FMPS.rightStep rq) x with
  | error e => simp
  | ok y =>
    simp only [ok_bind]
    split <;> rfl

theorem sim_leftOrth (fr : ℕ) (upTo : Option ℕ) : Sim o (Good o S) (HM.leftOrth qr o fr upTo)
    (fun x => x.leftOrthogonalise qr fr upTo >>= fun y => .ok ((), y)) (Good o S) := by
  unfold HM.leftOrth
  apply Sim.congr
  · apply Sim.attrL.bind
    intro L
    apply (Sim.each (p := FMPS.leftStep qr) fun m _ => sim_leftStep qr m).bind
    intro _
    apply Sim.ite
    · exact Sim.setAttr _ (fun x => { x with orthogonal := true, oc := some L }) (fun _ => rfl) fun _ _ => rfl
    · exact Sim.ret ()
  intro x
  unfold FMPS.leftOrthogonalise
  simp only [ok_bind]
  cases (List.range' fr (upTo.getD x.L - fr)).foldlM (FMPS.leftStep qr) x with
  | error e => simp
  | ok y =>
    simp only [ok_bind]
    split <;> rfl

/-- `right_orthogonalise(fr=oc)` puts a new array at `oc`, which is in no other cell -/
theorem sim_rightOrth_fresh (oc : ℕ) : Sim o (fun h => Good o S h ∧ oc < (h.obj o).L) (HM.rightOrth rq o oc none)
    (fun x => x.rightOrthogonalise rq oc none >>= fun y => .ok ((), y)) (Good o fun k => k = oc) := by
  rintro h ⟨hg, hoc⟩
  have key : ∀ n, oc < n → Sim o (Good o S) (do
      each (HM.rightStep rq o) (List.range' oc (n - oc)).reverse
      if oc = 0 ∧ n = n then HM.setAttr o fun ob => { ob with orthogonal := true, oc := some 0 } else pure ())
      (fun x => ((List.range' oc (n - oc)).reverse.foldlM (FMPS.rightStep rq) x >>= fun y =>
        if oc = 0 ∧ n = n then .ok { y with orthogonal := true, oc := some 0 } else .ok y) >>= fun y => .ok ((), y)) (Good o fun k => k = oc) := by
    intro n hn
    obtain ⟨k, hk⟩ : ∃ k, n - oc = k + 1 := ⟨n - oc - 1, by omega⟩
    rw [hk, List.range'_succ, List.reverse_cons, each_append]
    apply Sim.congr
    · apply Sim.bind
      · apply (Sim.each (p := FMPS.rightStep rq) fun m _ =>
          (sim_rightStep rq m).weaken (fun _ hg => hg) fun _ hg => hg.mono fun _ hk => Or.inl hk).bind
        intro _
        apply (sim_rightStep rq oc).bind
        intro _
        exact (Sim.ret ()).weaken (J := Good o fun k => S k ∨ k = oc) (fun _ hg => hg) fun _ hg => hg.mono fun _ hk => Or.inr hk
      · intro _
        apply Sim.ite
        · exact Sim.setAttr _ (fun x => { x with orthogonal := true, oc := some 0 }) (fun _ => rfl) fun _ _ => rfl
        · exact Sim.ret ()
    intro x
    rw [List.foldlM_append]
    cases (List.range' (oc + 1) k).reverse.foldlM (FMPS.rightStep rq) x with
    | error e => simp
    | ok y =>
      simp only [ok_bind, List.foldlM_cons, List.foldlM_nil]
      cases y.rightStep rq oc with
      | error e => simp
      | ok z =>
        simp only [ok_bind, py_pure]
        split <;> rfl
  exact key (h.obj o).L hoc h hg

theorem sim_mixedOrth (oc : ℕ) (c : Option ℕ) : Sim o (fun h => Good o S h ∧ oc < (h.obj o).L) (HM.mixedOrth qr rq o oc c)
    (fun x => x.mixedOrthogonalise qr rq oc c >>= fun y => .ok ((), y)) (Good o fun k => k = oc) := by
  unfold HM.mixedOrth
  apply Sim.congr
  · apply (Sim.lift _).bind
    intro _
    apply (sim_rightOrth_fresh rq oc).bind
    intro _
    apply (sim_leftOrth qr 0 (some oc)).bind
    intro _
    apply (Sim.getItem oc).bind
    intro A
    apply Sim.bind
    · exact Sim.setAttr _ (fun x => { x with norm_ := some (scalarND ((ndNorm A : ℝ) : ℂ)) }) (fun _ => rfl) fun _ _ => rfl
    intro _
    apply (Sim.writeItem (S := fun k => k = oc) oc _ rfl).bind
    intro _
    exact Sim.setAttr _ (fun x => { x with orthogonal := true, oc := some oc }) (fun _ => rfl) fun _ _ => rfl
  intro x
  unfold FMPS.mixedOrthogonalise
  cases guardPy c.isNone .notImplemented with
  | error e => simp
  | ok u =>
    simp only [ok_bind]
    cases x.rightOrthogonalise rq oc with
    | error e => simp
    | ok y =>
      simp only [ok_bind]
      cases y.leftOrthogonalise qr 0 (some oc) with
      | error e => simp
      | ok z =>
        simp only [ok_bind]
        cases hA : pyGet z.data oc with
        | error e => simp
        | ok A =>
          have := pyGet_lt hA
          simp only [ok_bind, this, if_true]

theorem sim_postSelect (site which : ℕ) : Sim o (Good o S) (HM.postSelect o site which)
    (fun x => x.postSelect site which >>= fun y => .ok ((), y)) (Good o fun _ => False) := by
  unfold HM.postSelect
  apply Sim.congr
  · apply Sim.ite
    · apply (Sim.getItem (site - 1)).bind
      intro A
      apply (Sim.getItem site).bind
      intro B
      apply (Sim.lift _).bind
      intro Bw
      apply (Sim.lift _).bind
      intro t
      apply (Sim.setItem' (site - 1) t).bind
      intro _
      exact Sim.delCell site
    · apply (Sim.getItem site).bind
      intro A
      apply (Sim.lift _).bind
      intro Aw
      apply (Sim.getItem (site + 1)).bind
      intro B
      apply (Sim.lift _).bind
      intro t
      apply (Sim.setItem' (site + 1) t).bind
      intro _
      exact Sim.delCell site
  intro x
  unfold FMPS.postSelect
  by_cases h0 : site ≠ 0
  · simp only [if_pos h0]
    cases hA : pyGet x.data (site - 1) with
    | error e => simp
    | ok A =>
      have h1 := pyGet_lt hA
      simp only [ok_bind]
      cases hB : pyGet x.data site with
      | error e => simp
      | ok B =>
        have h2 := pyGet_lt hB
        simp only [ok_bind]
        cases B.slice0 which with
        | error e => simp
        | ok Bw =>
          simp only [ok_bind]
          cases A.matmul Bw with
          | error e => simp
          | ok t => simp only [ok_bind, h1, if_true, List.length_set, h2]
  · simp only [if_neg h0]
    cases hA : pyGet x.data site with
    | error e => simp
    | ok A =>
      have h1 := pyGet_lt hA
      simp only [ok_bind]
      cases A.slice0 which with
      | error e => simp
      | ok Aw =>
        simp only [ok_bind]
        cases hB : pyGet x.data (site + 1) with
        | error e => simp
        | ok B =>
          have h2 := pyGet_lt hB
          simp only [ok_bind]
          cases Aw.matmul B with
          | error e => simp
          | ok t => simp only [ok_bind, h1, if_true, List.length_set, h2]

theorem sim_pairStep (which : Side) (g : ND ℂ × ℕ × Option ℕ) : Sim o (Good o S) (HM.pairStep qr rq svd O which o g)
    (fun x => x.pairStep qr rq svd O which g >>= fun y => .ok ((), y)) (Good o S) := by
  unfold HM.pairStep
  apply Sim.congr
  · apply (Sim.getItem g.2.1).bind
    intro A
    apply (Sim.getItem (g.2.1 + 1)).bind
    intro B
    apply (Sim.lift _).bind
    intro AB
    apply (Sim.setItem' g.2.1 AB.1).bind
    intro _
    exact Sim.setItem' (g.2.1 + 1) AB.2
  intro x
  unfold FMPS.pairStep
  cases hA : pyGet x.data g.2.1 with
  | error e => simp
  | ok A =>
    have h1 := pyGet_lt hA
    simp only [ok_bind]
    cases hB : pyGet x.data (g.2.1 + 1) with
    | error e => simp
    | ok B =>
      have h2 := pyGet_lt hB
      simp only [ok_bind]
      cases applyUnitary qr rq svd O A B g.1 which g.2.2 with
      | error e => simp
      | ok AB => simp only [ok_bind, h1, if_true, List.length_set, h2]

/-- `store` puts the tensors of `y` into the cells -/
theorem sim_store (y : FMPS ℂ) : Sim o (Good o S) (HM.store o y)
    (fun x => if y.data.length ≤ x.data.length then
        .ok ((), { x with
          data := y.data ++ x.data.drop y.data.length, D := y.D, canonical := y.canonical, orthogonal := y.orthogonal, oc := y.oc
          norm_ := y.norm_ })
      else .error .indexError) (Good o S) := by
  unfold HM.store
  have key : ∀ n ≤ y.data.length, Sim o (Good o S) (each (fun m => do
      let v ← HM.lift (pyGet y.data m)
      HM.setItem o m v) (List.range n)) (fun x => if n ≤ x.data.length then .ok ((), { x with data := y.data.take n ++ x.data.drop n })
        else .error .indexError) (Good o S) := by
    intro n
    induction n with
    | zero =>
      intro _
      apply Sim.congr
      · exact Sim.ret ()
      · intro x
        simp
    | succ n ih =>
      intro hn
      rw [List.range_succ, each_append]
      apply Sim.congr
      · apply (ih (by omega)).bind
        intro _
        apply Sim.bind
        · apply (Sim.lift _).bind
          intro v
          exact Sim.setItem' n v
        · intro _
          exact Sim.ret ()
      · intro x
        rw [pyGet_ok hn]
        simp only [ok_bind]
        by_cases h1 : n ≤ x.data.length
        · simp only [if_pos h1, ok_bind]
          have hlen : (y.data.take n ++ x.data.drop n).length = x.data.length := by
            simp
            omega
          rw [hlen]
          by_cases h2 : n < x.data.length
          · rw [if_pos h2, if_pos (by omega)]
            simp only [ok_bind]
            congr 3
            have hmin : (y.data.take n).length = n := by
              rw [List.length_take]
              omega
            rw [List.set_append_right _ _ hmin.le, List.drop_eq_getElem_cons h2, hmin, Nat.sub_self, List.set_cons_zero,
              List.take_succ_eq_append_getElem hn, List.append_assoc]
            rfl
          · rw [if_neg h2, if_neg (by omega)]
            simp
        · rw [if_neg h1, if_neg (by omega)]
          simp
  apply Sim.congr
  · apply (key _ le_rfl).bind
    intro _
    exact Sim.setAttr _ (fun x => { x with D := y.D, canonical := y.canonical, orthogonal := y.orthogonal, oc := y.oc, norm_ := y.norm_ })
      (fun _ => rfl) fun _ _ => rfl
  · intro x
    split
    · simp
    · simp

end

end Xmps
