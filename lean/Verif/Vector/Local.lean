import Verif.Vector.Client
import Verif.Local
set_option autoImplicit false
/-
The operations of `vector` touch nothing but the memory they are given.
-/
namespace Nestl.Vec
open Lean.Order
variable {V : Type}

theorem Local.rdObj (s : Ptr) : Local (rdObj s : M (W V) Obj) := by unfold Vec.rdObj; locally
macro_rules | `(tactic| local_leaf) => `(tactic| with_reducible exact Nestl.Vec.Local.rdObj _)
theorem Local.setObj (s : Ptr) (o : Obj) : Local (setObj s o : M (W V) Unit) := by unfold Vec.setObj; locally
macro_rules | `(tactic| local_leaf) => `(tactic| with_reducible exact Nestl.Vec.Local.setObj _ _)
theorem Local.rdBlk (p : Ptr) : Local (rdBlk p : M (W V) (Blk V)) := by unfold Vec.rdBlk; locally
macro_rules | `(tactic| local_leaf) => `(tactic| with_reducible exact Nestl.Vec.Local.rdBlk _)
theorem Local.slotRd (p : Ptr) (i : Nat) : Local (slotRd p i : M (W V) V) := by unfold Vec.slotRd; locally
macro_rules | `(tactic| local_leaf) => `(tactic| with_reducible exact Nestl.Vec.Local.slotRd _ _)
theorem Local.slotPut (p : Ptr) (i : Nat) (v : V) : Local (slotPut p i v : M (W V) Unit) := by unfold Vec.slotPut; locally
macro_rules | `(tactic| local_leaf) => `(tactic| with_reducible exact Nestl.Vec.Local.slotPut _ _ _)
theorem Local.destroySlot (p : Ptr) (i : Nat) : Local (destroySlot p i : M (W V) Unit) := by unfold Vec.destroySlot; locally
macro_rules | `(tactic| local_leaf) => `(tactic| with_reducible exact Nestl.Vec.Local.destroySlot _ _)
theorem Local.destroyRange (p : Ptr) (i : Nat) (n : Nat) : Local (destroyRange p i n : M (W V) Unit) := by
  induction n generalizing i with
  | zero => exact .pure _
  | succ n ih =>
    unfold Vec.destroyRange
    repeat' first
      | with_reducible exact ih _
      | local_leaf
      | with_reducible apply Nestl.Local.bind
      | with_reducible apply Nestl.Local.ite
      | intro _
macro_rules | `(tactic| local_leaf) => `(tactic| with_reducible exact Nestl.Vec.Local.destroyRange _ _ _)
theorem Local.argVal (a : Arg V) : Local (argVal a : M (W V) V) := by
  cases a
  · exact .pure _
  · exact Local.slotRd _ _
macro_rules | `(tactic| local_leaf) => `(tactic| with_reducible exact Nestl.Vec.Local.argVal _)
theorem Local.construct (p : Ptr) (i : Nat) (a : Arg V) : Local (construct p i a : M (W V) Unit) := by unfold Vec.construct; locally
macro_rules | `(tactic| local_leaf) => `(tactic| with_reducible exact Nestl.Vec.Local.construct _ _ _)
theorem Local.ucLoop (p : Ptr) (i : Nat) (as : List (Arg V)) : Local (ucLoop p i as : M (W V) (Nat × Bool)) := by
  induction as generalizing i with
  | nil => exact .pure _
  | cons a as ih =>
    unfold Vec.ucLoop
    repeat' first
      | with_reducible exact ih _
      | local_leaf
      | with_reducible apply Nestl.Local.bind
      | with_reducible apply Nestl.Local.ite
      | intro _
macro_rules | `(tactic| local_leaf) => `(tactic| with_reducible exact Nestl.Vec.Local.ucLoop _ _ _)
theorem Local.uninitCopy (src : List (Arg V)) (p : Ptr) (i : Nat) : Local (uninitCopy src p i : M (W V) Nat) := by unfold Vec.uninitCopy; locally
macro_rules | `(tactic| local_leaf) => `(tactic| with_reducible exact Nestl.Vec.Local.uninitCopy _ _ _)
theorem Local.deallocate (a : Nat) (p : Ptr) (n : Nat) : Local (deallocate a p n : M (W V) Unit) := by unfold Vec.deallocate; locally
macro_rules | `(tactic| local_leaf) => `(tactic| with_reducible exact Nestl.Vec.Local.deallocate _ _ _)
theorem Local.shift (p : Ptr) (i : Nat) (k : Nat) : Local (shift p i k : M (W V) Bool) := by
  induction k with
  | zero => exact .pure _
  | succ k ih =>
    unfold Vec.shift
    repeat' first
      | with_reducible exact ih
      | local_leaf
      | with_reducible apply Nestl.Local.bind
      | with_reducible apply Nestl.Local.ite
      | intro _
macro_rules | `(tactic| local_leaf) => `(tactic| with_reducible exact Nestl.Vec.Local.shift _ _ _)
theorem Local.newVec (a : Nat) : Local (newVec a : M (W V) Ptr) := by unfold Vec.newVec; locally
macro_rules | `(tactic| local_leaf) => `(tactic| with_reducible exact Nestl.Vec.Local.newVec _)
theorem Local.destroyVec (s : Ptr) : Local (destroyVec s : M (W V) Unit) := by unfold Vec.destroyVec; locally
macro_rules | `(tactic| local_leaf) => `(tactic| with_reducible exact Nestl.Vec.Local.destroyVec _)
theorem Local.swapData (s t : Ptr) : Local (swapData s t : M (W V) Unit) := by unfold Vec.swapData; locally
macro_rules | `(tactic| local_leaf) => `(tactic| with_reducible exact Nestl.Vec.Local.swapData _ _)
theorem Local.swap (s t : Ptr) : Local (swap s t : M (W V) Unit) := by unfold Vec.swap; locally
macro_rules | `(tactic| local_leaf) => `(tactic| with_reducible exact Nestl.Vec.Local.swap _ _)
theorem Local.clear (s : Ptr) : Local (clear s : M (W V) Unit) := by unfold Vec.clear; locally
macro_rules | `(tactic| local_leaf) => `(tactic| with_reducible exact Nestl.Vec.Local.clear _)
theorem Local.moveCtor (s : Ptr) : Local (moveCtor s : M (W V) Ptr) := by unfold Vec.moveCtor; locally
macro_rules | `(tactic| local_leaf) => `(tactic| with_reducible exact Nestl.Vec.Local.moveCtor _)
theorem Local.moveAssign (s t : Ptr) : Local (moveAssign s t : M (W V) Unit) := by unfold Vec.moveAssign; locally
macro_rules | `(tactic| local_leaf) => `(tactic| with_reducible exact Nestl.Vec.Local.moveAssign _ _)
theorem Local.begin_ (s : Ptr) : Local (begin_ s : M (W V) Ptr) := by unfold Vec.begin_; locally
macro_rules | `(tactic| local_leaf) => `(tactic| with_reducible exact Nestl.Vec.Local.begin_ _)

section
variable [ElemSize V]

theorem Local.allocate (a n : Nat) : Local (allocate a n : M (W V) Ptr) := by
  intro w p w' h
  unfold Runs Vec.allocate at h
  by_cases hb : maxBytes < wrap (n * ElemSize.size V)
  · rw [if_pos hb] at h
    cases h
    refine ⟨⟨rfl, Nat.le_succ _, Nat.le_refl _, fun _ h => .inl h⟩, fun F n hF _ => ⟨hF, ?_⟩⟩
    unfold Runs Vec.allocate
    rw [if_pos hb]
    rfl
  · rw [if_neg hb] at h
    obtain ⟨h1, h2⟩ := Local.allocCell _ _ _ _ h
    refine ⟨h1, fun F n hF hR => ?_⟩
    obtain ⟨h3, h4⟩ := h2 F n hF hR
    refine ⟨h3, ?_⟩
    unfold Runs Vec.allocate
    rw [if_neg hb]
    exact h4
macro_rules | `(tactic| local_leaf) => `(tactic| with_reducible exact Nestl.Vec.Local.allocate _ _)
theorem Local.doReserve (s : Ptr) (n : Nat) : Local (doReserve s n : M (W V) Unit) := by unfold Vec.doReserve; locally
macro_rules | `(tactic| local_leaf) => `(tactic| with_reducible exact Nestl.Vec.Local.doReserve _ _)
theorem Local.reserve (s : Ptr) (n : Nat) : Local (reserve s n : M (W V) Unit) := by unfold Vec.reserve; locally
macro_rules | `(tactic| local_leaf) => `(tactic| with_reducible exact Nestl.Vec.Local.reserve _ _)
theorem Local.shrinkToFit (s : Ptr) : Local (shrinkToFit s : M (W V) Unit) := by unfold Vec.shrinkToFit; locally
macro_rules | `(tactic| local_leaf) => `(tactic| with_reducible exact Nestl.Vec.Local.shrinkToFit _)
theorem Local.grow (s : Ptr) (n : Nat) : Local (grow s n : M (W V) Unit) := by unfold Vec.grow; locally
macro_rules | `(tactic| local_leaf) => `(tactic| with_reducible exact Nestl.Vec.Local.grow _ _)
theorem Local.growIfFull (s : Ptr) : Local (growIfFull s : M (W V) Bool) := by unfold Vec.growIfFull; locally
macro_rules | `(tactic| local_leaf) => `(tactic| with_reducible exact Nestl.Vec.Local.growIfFull _)
theorem Local.insertValue (s : Ptr) (i : Nat) (a : Arg V) : Local (insertValue s i a : M (W V) Nat) := by unfold Vec.insertValue; locally
macro_rules | `(tactic| local_leaf) => `(tactic| with_reducible exact Nestl.Vec.Local.insertValue _ _ _)
theorem Local.insertRangeLoop (s : Ptr) (i : Nat) (as : List (Arg V)) : Local (insertRangeLoop s i as : M (W V) Unit) := by
  induction as generalizing i with
  | nil => exact .pure _
  | cons a as ih =>
    unfold Vec.insertRangeLoop
    repeat' first
      | with_reducible exact ih _
      | local_leaf
      | with_reducible apply Nestl.Local.bind
      | with_reducible apply Nestl.Local.ite
      | intro _
macro_rules | `(tactic| local_leaf) => `(tactic| with_reducible exact Nestl.Vec.Local.insertRangeLoop _ _ _)
theorem Local.insertRange (s : Ptr) (i : Nat) (as : List (Arg V)) : Local (insertRange s i as : M (W V) Unit) := by unfold Vec.insertRange; locally
macro_rules | `(tactic| local_leaf) => `(tactic| with_reducible exact Nestl.Vec.Local.insertRange _ _ _)
theorem Local.pushBack (s : Ptr) (a : Arg V) : Local (pushBack s a : M (W V) Unit) := by unfold Vec.pushBack; locally
macro_rules | `(tactic| local_leaf) => `(tactic| with_reducible exact Nestl.Vec.Local.pushBack _ _)
omit [ElemSize V] in
theorem Local.resizeLoop (s : Ptr) (a : Arg V) (n : Nat) : Local (resizeLoop s a n : M (W V) Unit) := by
  induction n with
  | zero => exact .pure _
  | succ n ih =>
    unfold Vec.resizeLoop
    repeat' first
      | with_reducible exact ih
      | local_leaf
      | with_reducible apply Nestl.Local.bind
      | with_reducible apply Nestl.Local.ite
      | intro _
macro_rules | `(tactic| local_leaf) => `(tactic| with_reducible exact Nestl.Vec.Local.resizeLoop _ _ _)
theorem Local.resize (s : Ptr) (n : Nat) (a : Arg V) : Local (resize s n a : M (W V) Unit) := by unfold Vec.resize; locally
macro_rules | `(tactic| local_leaf) => `(tactic| with_reducible exact Nestl.Vec.Local.resize _ _ _)
theorem Local.assignLoop (s : Ptr) (a : Arg V) (n : Nat) : Local (assignLoop s a n : M (W V) Unit) := by
  induction n with
  | zero => exact .pure _
  | succ n ih =>
    unfold Vec.assignLoop
    repeat' first
      | with_reducible exact ih
      | local_leaf
      | with_reducible apply Nestl.Local.bind
      | with_reducible apply Nestl.Local.ite
      | intro _
macro_rules | `(tactic| local_leaf) => `(tactic| with_reducible exact Nestl.Vec.Local.assignLoop _ _ _)
theorem Local.assignIter (s : Ptr) (as : List (Arg V)) : Local (assignIter s as : M (W V) Unit) := by
  induction as with
  | nil => exact .pure _
  | cons a as ih =>
    unfold Vec.assignIter
    repeat' first
      | with_reducible exact ih
      | local_leaf
      | with_reducible apply Nestl.Local.bind
      | with_reducible apply Nestl.Local.ite
      | intro _
macro_rules | `(tactic| local_leaf) => `(tactic| with_reducible exact Nestl.Vec.Local.assignIter _ _)
theorem Local.assignN (s : Ptr) (n : Nat) (a : Arg V) : Local (assignN s n a : M (W V) Unit) := by unfold Vec.assignN; locally
macro_rules | `(tactic| local_leaf) => `(tactic| with_reducible exact Nestl.Vec.Local.assignN _ _ _)
theorem Local.assignInput (s : Ptr) (as : List (Arg V)) : Local (assignInput s as : M (W V) Unit) := by unfold Vec.assignInput; locally
macro_rules | `(tactic| local_leaf) => `(tactic| with_reducible exact Nestl.Vec.Local.assignInput _ _)
theorem Local.assignRandom (s : Ptr) (as : List (Arg V)) : Local (assignRandom s as : M (W V) Unit) := by unfold Vec.assignRandom; locally
macro_rules | `(tactic| local_leaf) => `(tactic| with_reducible exact Nestl.Vec.Local.assignRandom _ _)
theorem Local.copyNothrow (s t : Ptr) : Local (copyNothrow s t : M (W V) Unit) := by unfold Vec.copyNothrow; locally
macro_rules | `(tactic| local_leaf) => `(tactic| with_reducible exact Nestl.Vec.Local.copyNothrow _ _)
omit [ElemSize V] in
theorem Local.evalArg (a : VC.CArg V) : Local (VC.evalArg a : M (W V) (Arg V)) := by
  cases a <;> unfold VC.evalArg <;> locally
macro_rules | `(tactic| local_leaf) => `(tactic| with_reducible exact Nestl.Vec.Local.evalArg _)

theorem Local.exec (c : VC.Call V) : Local (VC.exec c) := by
  cases c <;> unfold VC.exec <;> locally

end
end Nestl.Vec
