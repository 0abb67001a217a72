import Verif.VectorOf.Elems
set_option autoImplicit false
/-
The functions of vectors of objects do what those of vectors of values do.
-/
namespace Nestl.VO
open Nestl.Vec (W VCell Obj Blk rdObj setObj rdBlk slotRd slotPut deallocate allocate newVec swapData)
open Classical
variable {S A X α β : Type} {E : Elem S A X} {P : NS S → Prop} {u : (Ptr → Option A) × X}

/-- Nothing has happened outside of the vectors, and there is no error. -/
def Good (E : Elem S A X) (u : (Ptr → Option A) × X) (s : NS S) : Prop := Keep E u s ∧ s.o.err = none

theorem Good.stable : Stable E (Good E u) := fun _ _ h1 h2 h3 => ⟨h1.trans h3.1, h2.trans h3.2⟩

theorem failed_false {s : NS S} {P : NS S → Prop} (h : P s ∧ s.o.err.isSome = false) : s.o.err = none := by
  simpa using h.2

/-- Lists of arguments. -/
inductive ArgsRel (E : Elem S A X) (u : (Ptr → Option A) × X) : List Arg → List (Vec.Arg A) → Prop
  | nil : ArgsRel E u [] []
  | cons {a : Arg} {a' : Vec.Arg A} {as : List Arg} {as' : List (Vec.Arg A)} : ArgRel E u a a' → ArgsRel E u as as' →
      ArgsRel E u (a :: as) (a' :: as')

theorem ArgsRel.length {as : List Arg} {as' : List (Vec.Arg A)} (h : ArgsRel E u as as') : as.length = as'.length := by
  induction h with
  | nil => rfl
  | cons _ _ ih => simp [ih]

theorem ArgsRel.refs (p : Ptr) (first n : Nat) : ArgsRel E u (refs p first n) (Vec.refs p first n) := by
  unfold VO.refs Vec.refs
  induction n generalizing first with
  | zero => exact .nil
  | succ n ih => rw [List.range'_succ]; exact .cons ⟨rfl, rfl⟩ (ih _)

theorem sim_destroyRange (hP : Stable E P) (p : Ptr) (first n : Nat) :
    Sim E P (destroyRange E.toElemOps p first n) (Vec.destroyRange p first n) fun _ => P := by
  induction n generalizing first with
  | zero => exact Sim.pure _ fun _ h => h
  | succ n ih => exact Sim.bind (sim_destroySlot hP p first) fun _ => ih _

theorem sim_ucLoop (p : Ptr) (cur : Nat) {as : List Arg} {as' : List (Vec.Arg A)} (h : ArgsRel E u as as') :
    Sim E (Keep E u) (ucLoop E.toElemOps p cur as) (Vec.ucLoop p cur as') fun _ => Keep E u := by
  induction h generalizing cur with
  | nil => exact Sim.pure _ fun _ h => h
  | cons h1 _ ih =>
    refine Sim.bind (sim_construct p cur h1) fun _ => Sim.bind sim_failed fun b => Sim.ite (fun _ => ?_) fun _ => ?_
    · exact Sim.pure _ fun _ h => h.1
    · exact (ih _).weaken (fun _ h => h.1) fun _ _ h => h

theorem sim_uninitCopy (p : Ptr) (out : Nat) {as : List Arg} {as' : List (Vec.Arg A)} (h : ArgsRel E u as as') :
    Sim E (Keep E u) (uninitCopy E.toElemOps as p out) (Vec.uninitCopy as' p out) fun _ => Keep E u :=
  Sim.bind (sim_ucLoop p out h) fun r => Sim.ite (fun _ => Sim.pure _ fun _ h => h) fun _ =>
    Sim.bind (sim_destroyRange Keep.stable _ _ _) fun _ => Sim.pure _ fun _ h => h

section sized
variable [Vec.ElemSize Ptr]

theorem sim_doReserve (k n : Nat) :
    Sim E (Keep E u) (doReserve E.toElemOps (.stk k) n) (@Vec.doReserve A (valueSize A) (.stk k) n) fun _ => Keep E u := by
  refine Sim.bind (sim_rdObj _) fun o => Sim.bind (sim_allocate Keep.loose _ _) fun p => Sim.bind sim_failed fun b =>
    Sim.ite (fun _ => Sim.pure _ fun _ h => h.1) fun _ => ?_
  refine Sim.bind (Q := fun _ => Keep E u) ((sim_uninitCopy p 0 (ArgsRel.refs o.start 0 o.fin)).weaken (fun _ h => h.1) fun _ _ h => h)
    fun _ => Sim.bind sim_failed fun b => Sim.ite (fun _ => ?_) fun _ => ?_
  · exact (sim_deallocate Keep.stable _ _ _).weaken (fun _ h => h.1) fun _ _ h => h
  · refine Sim.bind (Q := fun _ => Keep E u) ((sim_destroyRange Keep.stable _ _ _).weaken (fun _ h => h.1) fun _ _ h => h) fun _ =>
      Sim.bind (sim_deallocate Keep.stable _ _ _) fun _ => sim_setObj Keep.stable _ _

theorem sim_reserve (k n : Nat) :
    Sim E (Keep E u) (reserve E.toElemOps (.stk k) n) (@Vec.reserve A (valueSize A) (.stk k) n) fun _ => Keep E u :=
  Sim.bind (sim_rdObj _) fun _ => Sim.ite (fun _ => Sim.pure _ fun _ h => h) fun _ => sim_doReserve k n

theorem sim_shrinkToFit (k : Nat) :
    Sim E (Keep E u) (shrinkToFit E.toElemOps (.stk k)) (@Vec.shrinkToFit A (valueSize A) (.stk k)) fun _ => Keep E u :=
  Sim.bind (sim_rdObj _) fun _ => Sim.ite (fun _ => sim_doReserve k _) fun _ => Sim.pure _ fun _ h => h

theorem sim_grow (k n : Nat) :
    Sim E (Keep E u) (grow E.toElemOps (.stk k) n) (@Vec.grow A (valueSize A) (.stk k) n) fun _ => Keep E u :=
  Sim.bind (sim_rdObj _) fun _ => Sim.bind (Sim.assert _) fun _ => sim_reserve k _

omit [Vec.ElemSize Ptr] in
theorem sim_shift (p : Ptr) (first n : Nat) :
    Sim E (Good E u) (shift E.toElemOps p first n) (Vec.shift p first n)
      fun b s => Keep E u s ∧ s.o.err.isSome = !b := by
  induction n with
  | zero => exact Sim.pure _ fun _ h => ⟨h.1, by rw [h.2]; rfl⟩
  | succ n ih =>
    refine Sim.bind (Q := fun _ => Keep E u) ((sim_construct p _ (a := .ref p (first + n)) (a' := .ref p (first + n)) ⟨rfl, rfl⟩).weaken
      (fun _ h => h.1) fun _ _ h => h) fun _ => Sim.bind sim_failed fun b => ?_
    cases b with
    | true => exact Sim.pure _ fun _ h => h
    | false =>
      exact Sim.bind (Q := fun _ => Good E u) ((sim_destroySlot Good.stable p _).weaken (fun _ h => ⟨h.1, failed_false h⟩) fun _ _ h => h)
        fun _ => ih

theorem sim_growIfFull (k : Nat) :
    Sim E (Good E u) (growIfFull E.toElemOps (.stk k)) (@Vec.growIfFull A (valueSize A) (.stk k))
      fun b s => Keep E u s ∧ s.o.err.isSome = b := by
  refine Sim.bind (sim_rdObj _) fun o => Sim.ite (fun _ => ?_) fun _ => ?_
  · refine Sim.bind (Q := fun _ => Keep E u) ((sim_grow k _).weaken (fun _ h => h.1) fun _ _ h => h) fun _ => ?_
    exact sim_failed
  · exact Sim.pure _ fun _ h => ⟨h.1, by rw [h.2]; rfl⟩

/-- The part of `insert_value` before the construction of the new element. -/
theorem sim_insertValue_of (k pos : Nat) {a : Arg} {a' : Vec.Arg A} {Q : NS S → Prop} (hQ : Stable E Q)
    (hc : ∀ p i, Sim E (Good E u) (construct E.toElemOps p i a) (Vec.construct p i a') fun _ => Q) :
    Sim E (Good E u) (insertValue E.toElemOps (.stk k) pos a) (@Vec.insertValue A (valueSize A) (.stk k) pos a')
      fun _ s => (Keep E u s ∧ s.o.err ≠ none) ∨ Q s := by
  refine Sim.bind (sim_rdObj _) fun o => Sim.bind (Sim.assert _) fun _ => ?_
  refine Sim.bind (sim_growIfFull k) fun b => ?_
  cases b with
  | true => exact Sim.pure _ fun _ h => .inl ⟨h.1, by intro e; rw [e] at h; cases h.2⟩
  | false =>
  refine Sim.bind (Q := fun _ => Good E u) ((sim_rdObj _).weaken (fun _ h => ⟨h.1, failed_false h⟩) fun _ _ h => h) fun o' =>
    Sim.bind (Sim.assert _) fun _ => Sim.bind (sim_shift _ _ _) fun b => ?_
  cases b with
  | false => exact Sim.pure _ fun _ h => .inl ⟨h.1, by intro e; rw [e] at h; cases h.2⟩
  | true =>
  refine Sim.bind (Q := fun _ => Q) ((hc _ _).weaken (fun _ h => ⟨h.1, failed_false h⟩) fun _ _ h => h) fun _ =>
    Sim.bind sim_failed fun b => Sim.ite (fun _ => Sim.pure _ fun _ h => .inr h.1) fun _ => ?_
  exact Sim.bind (Q := fun _ => Q) ((sim_setObj hQ _ _).weaken (fun _ h => h.1) fun _ _ h => h) fun _ => Sim.pure _ fun _ h => .inr h

theorem sim_insertValue (k pos : Nat) {a : Arg} {a' : Vec.Arg A} (ha : ArgRel E u a a') :
    Sim E (Good E u) (insertValue E.toElemOps (.stk k) pos a) (@Vec.insertValue A (valueSize A) (.stk k) pos a') fun _ => Keep E u :=
  (sim_insertValue_of k pos Keep.stable fun p i => (sim_construct p i ha).weaken (fun _ h => h.1) fun _ _ h => h).weaken
    (fun _ h => h) fun _ _ h => h.elim (·.1) id

/-- What has happened to the moved object. -/
def Gone (E : Elem S A X) (u : (Ptr → Option A) × X) (t : Ptr) (s : NS S) : Prop :=
  (Keep E u s ∧ s.o.err ≠ none) ∨ Good E (movedOut E u t) s

theorem sim_insertValue_move (k pos : Nat) {t : Ptr} {x : A} (ht : u.1 t = some x) :
    Sim E (Good E u) (insertValue E.toElemOps (.stk k) pos (.mov t)) (@Vec.insertValue A (valueSize A) (.stk k) pos (.lit x))
      fun _ => Gone E u t :=
  sim_insertValue_of k pos Good.stable fun p i => sim_construct_move p i ht

theorem sim_pushBack (k : Nat) {a : Arg} {a' : Vec.Arg A} (ha : ArgRel E u a a') :
    Sim E (Good E u) (pushBack E.toElemOps (.stk k) a) (@Vec.pushBack A (valueSize A) (.stk k) a') fun _ => Keep E u :=
  Sim.bind (sim_rdObj _) fun _ => Sim.bind (sim_insertValue k _ ha) fun _ => Sim.pure _ fun _ h => h

theorem sim_pushBack_move (k : Nat) {t : Ptr} {x : A} (ht : u.1 t = some x) :
    Sim E (Good E u) (pushBack E.toElemOps (.stk k) (.mov t)) (@Vec.pushBack A (valueSize A) (.stk k) (.lit x)) fun _ => Gone E u t :=
  Sim.bind (sim_rdObj _) fun _ => Sim.bind (sim_insertValue_move k _ ht) fun _ => Sim.pure _ fun _ h => h

theorem sim_resizeLoop (k n : Nat) {a : Arg} {a' : Vec.Arg A} (ha : ArgRel E u a a') :
    Sim E (Keep E u) (resizeLoop E.toElemOps (.stk k) a n) (Vec.resizeLoop (.stk k) a' n) fun _ => Keep E u := by
  induction n with
  | zero => exact Sim.pure _ fun _ h => h
  | succ n ih =>
    refine Sim.bind (sim_rdObj _) fun o => Sim.bind (sim_construct _ _ ha) fun _ => Sim.bind sim_failed fun b =>
      Sim.ite (fun _ => Sim.pure _ fun _ h => h.1) fun _ => ?_
    exact Sim.bind (Q := fun _ => Keep E u) ((sim_setObj Keep.stable _ _).weaken (fun _ h => h.1) fun _ _ h => h) fun _ => ih

theorem sim_resize (k n : Nat) {a : Arg} {a' : Vec.Arg A} (ha : ArgRel E u a a') :
    Sim E (Keep E u) (resize E.toElemOps (.stk k) n a) (@Vec.resize A (valueSize A) (.stk k) n a') fun _ => Keep E u := by
  refine Sim.bind (sim_rdObj _) fun o => Sim.ite (fun _ => ?_) fun _ => ?_
  · exact Sim.bind (sim_destroyRange Keep.stable _ _ _) fun _ => sim_setObj Keep.stable _ _
  · refine Sim.bind (sim_grow k n) fun _ => Sim.bind sim_failed fun b => Sim.ite (fun _ => Sim.pure _ fun _ h => h.1) fun _ => ?_
    exact (sim_resizeLoop k _ ha).weaken (fun _ h => h.1) fun _ _ h => h

end sized

theorem sim_clear (hP : Stable E P) (k : Nat) :
    Sim E P (clear E.toElemOps (.stk k)) (Vec.clear (.stk k)) fun _ => P :=
  Sim.bind (sim_rdObj _) fun _ => Sim.bind (sim_destroyRange hP _ _ _) fun _ => sim_setObj hP _ _

theorem sim_destroyVec (hP : Stable E P) (k : Nat) :
    Sim E P (destroyVec E.toElemOps (.stk k)) (Vec.destroyVec (.stk k)) fun _ => P :=
  Sim.bind (sim_rdObj _) fun _ => Sim.bind (sim_destroyRange hP _ _ _) fun _ => Sim.bind (sim_deallocate hP _ _ _) fun _ =>
    sim_dropObj hP _

theorem sim_swapData (hP : Stable E P) (k l : Nat) :
    Sim E P (onO (swapData (.stk k) (.stk l))) (swapData (.stk k) (.stk l)) fun _ => P := by
  unfold swapData
  simp only [onO_bind]
  exact Sim.bind (sim_rdObj _) fun _ => Sim.bind (sim_rdObj _) fun _ => Sim.bind (sim_setObj hP _ _) fun _ =>
    Sim.bind (sim_rdObj _) fun _ => sim_setObj hP _ _

theorem sim_swap (hP : Stable E P) (k l : Nat) :
    Sim E P (onO (Vec.swap (.stk k) (.stk l))) (Vec.swap (.stk k) (.stk l)) fun _ => P := by
  unfold Vec.swap
  simp only [onO_bind]
  exact Sim.bind (sim_rdObj _) fun _ => Sim.bind (sim_rdObj _) fun _ => Sim.bind (sim_setObj hP _ _) fun _ =>
    Sim.bind (sim_rdObj _) fun _ => Sim.bind (sim_setObj hP _ _) fun _ => sim_swapData hP _ _

/-- A fact that does not depend on the state. -/
theorem Sim.pre {m : M (NS S) α} {n : M (W A) α} {Q : α → NS S → Prop} {φ : Prop} (h : φ → Sim E P m n Q) :
    Sim E (fun s => P s ∧ φ) m n Q :=
  fun s w hR hP hA => h hP.2 s w hR hP.1 hA

theorem sim_moveCtor (hP : Stable E P) (k : Nat) :
    Sim E P (onO (Vec.moveCtor (.stk k))) (Vec.moveCtor (.stk k)) fun r s => P s ∧ ∃ k, r = .stk k := by
  unfold Vec.moveCtor
  simp only [onO_bind]
  refine Sim.bind (sim_rdObj _) fun _ => Sim.bind (sim_newVec hP _) fun r => ?_
  refine Sim.pre ?_
  rintro ⟨l, rfl⟩
  exact Sim.bind (sim_swapData hP _ _) fun _ => Sim.pure _ fun s h => ⟨h, _, rfl⟩

theorem sim_moveAssign (hP : Stable E P) (k l : Nat) :
    Sim E P (moveAssign E.toElemOps (.stk k) (.stk l)) (Vec.moveAssign (.stk k) (.stk l)) fun _ => P := by
  refine Sim.bind (sim_moveCtor hP k) fun r => ?_
  refine Sim.pre ?_
  rintro ⟨j, rfl⟩
  exact Sim.bind (sim_swapData hP _ _) fun _ => sim_destroyVec hP _

section sized
variable [Vec.ElemSize Ptr]

theorem sim_assignLoop (k n : Nat) {a : Arg} {a' : Vec.Arg A} (ha : ArgRel E u a a') :
    Sim E (Good E u) (assignLoop E.toElemOps (.stk k) a n) (@Vec.assignLoop A (valueSize A) (.stk k) a' n) fun _ => Keep E u := by
  induction n with
  | zero => exact Sim.pure _ fun _ h => h.1
  | succ n ih =>
    refine Sim.bind (sim_pushBack k ha) fun _ => Sim.bind sim_failed fun b => ?_
    cases b with
    | true => exact Sim.pure _ fun _ h => h.1
    | false => exact ih.weaken (fun _ h => ⟨h.1, failed_false h⟩) fun _ _ h => h

theorem sim_assignIter (k : Nat) {as : List Arg} {as' : List (Vec.Arg A)} (ha : ArgsRel E u as as') :
    Sim E (Good E u) (assignIter E.toElemOps (.stk k) as) (@Vec.assignIter A (valueSize A) (.stk k) as') fun _ => Keep E u := by
  induction ha with
  | nil => exact Sim.pure _ fun _ h => h.1
  | cons h1 _ ih =>
    refine Sim.bind (sim_pushBack k h1) fun _ => Sim.bind sim_failed fun b => ?_
    cases b with
    | true => exact Sim.pure _ fun _ h => h.1
    | false => exact ih.weaken (fun _ h => ⟨h.1, failed_false h⟩) fun _ _ h => h

theorem sim_assignN (k n : Nat) {a : Arg} {a' : Vec.Arg A} (ha : ArgRel E u a a') :
    Sim E (Keep E u) (assignN E.toElemOps (.stk k) n a) (@Vec.assignN A (valueSize A) (.stk k) n a') fun _ => Keep E u := by
  refine Sim.bind (sim_newVec Keep.stable _) fun r => ?_
  refine Sim.pre ?_
  rintro ⟨l, rfl⟩
  refine Sim.bind (sim_swap Keep.stable _ _) fun _ => Sim.bind (sim_rdObj _) fun _ => Sim.bind (Sim.assert _) fun _ =>
    Sim.bind (sim_grow k n) fun _ => Sim.bind sim_failed fun b => ?_
  cases b with
  | true => exact (sim_destroyVec Keep.stable l).weaken (fun _ h => h.1) fun _ _ h => h
  | false =>
    exact Sim.bind (Q := fun _ => Keep E u) ((sim_assignLoop k n ha).weaken (fun _ h => ⟨h.1, failed_false h⟩) fun _ _ h => h) fun _ =>
      sim_destroyVec Keep.stable l

theorem sim_assignRandom (k : Nat) {as : List Arg} {as' : List (Vec.Arg A)} (ha : ArgsRel E u as as') :
    Sim E (Keep E u) (assignRandom E.toElemOps (.stk k) as) (@Vec.assignRandom A (valueSize A) (.stk k) as') fun _ => Keep E u := by
  refine Sim.bind (sim_newVec Keep.stable _) fun r => ?_
  refine Sim.pre ?_
  rintro ⟨l, rfl⟩
  rw [ha.length]
  refine Sim.bind (sim_swap Keep.stable _ _) fun _ => Sim.bind (sim_rdObj _) fun _ => Sim.bind (Sim.assert _) fun _ =>
    Sim.bind (sim_grow k _) fun _ => Sim.bind sim_failed fun b => ?_
  cases b with
  | true => exact (sim_destroyVec Keep.stable l).weaken (fun _ h => h.1) fun _ _ h => h
  | false =>
    refine Sim.bind (Q := fun _ => Good E u) ((sim_rdObj _).weaken (fun _ h => ⟨h.1, failed_false h⟩) fun _ _ h => h) fun _ =>
      Sim.bind (Sim.assert _) fun _ => Sim.bind (sim_assignIter k ha) fun _ => sim_destroyVec Keep.stable l

theorem sim_copyNothrow (k l : Nat) :
    Sim E (Keep E u) (copyNothrow E.toElemOps (.stk k) (.stk l)) (@Vec.copyNothrow A (valueSize A) (.stk k) (.stk l)) fun _ => Keep E u :=
  Sim.bind (sim_rdObj _) fun _ => sim_assignRandom k (ArgsRel.refs _ _ _)

end sized
end Nestl.VO
