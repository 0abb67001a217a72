import Verif.RBTree.ModelExtra
import Verif.RBTree.ModelEqual
import Verif.RBTree.ModelSwap
import Verif.Set.Client
import Verif.Mute
set_option autoImplicit false
/-
Operations of the tree that call no comparator.
-/
namespace Nestl.RB
open Lean.Order
variable {K : Type}

theorem Mute.setColor (p : Ptr) (c : Color) : Mute (setColor p c : M (W K) Unit) := by unfold RB.setColor; mutes
macro_rules | `(tactic| mute_leaf) => `(tactic| with_reducible exact Mute.setColor _ _)
theorem Mute.setParent (p q : Ptr) : Mute (setParent p q : M (W K) Unit) := by unfold RB.setParent; mutes
macro_rules | `(tactic| mute_leaf) => `(tactic| with_reducible exact Mute.setParent _ _)
theorem Mute.setLeft (p q : Ptr) : Mute (setLeft p q : M (W K) Unit) := by unfold RB.setLeft; mutes
macro_rules | `(tactic| mute_leaf) => `(tactic| with_reducible exact Mute.setLeft _ _)
theorem Mute.setRight (p q : Ptr) : Mute (setRight p q : M (W K) Unit) := by unfold RB.setRight; mutes
macro_rules | `(tactic| mute_leaf) => `(tactic| with_reducible exact Mute.setRight _ _)
theorem Mute.setCount (p : Ptr) (f : Nat → Nat) : Mute (setCount p f : M (W K) Unit) := by unfold RB.setCount; mutes
macro_rules | `(tactic| mute_leaf) => `(tactic| with_reducible exact Mute.setCount _ _)
theorem Mute.keyOf (p : Ptr) : Mute (keyOf p : M (W K) K) := by unfold RB.keyOf; mutes
macro_rules | `(tactic| mute_leaf) => `(tactic| with_reducible exact Mute.keyOf _)
theorem Mute.newTree (a : Nat) : Mute (newTree a : M (W K) Ptr) := by unfold RB.newTree; mutes
macro_rules | `(tactic| mute_leaf) => `(tactic| with_reducible exact Mute.newTree _)
theorem Mute.minLoop (x : Ptr) : Mute (minLoop x : M (W K) Ptr) := by
  revert x
  refine RB.minLoop.fixpoint_induct  _ Mute.admissible1 ?_
  intro f hf x
  repeat' first
    | with_reducible exact hf _
    | mute_leaf
    | with_reducible apply Nestl.Mute.bind
    | with_reducible apply Nestl.Mute.ite
    | with_reducible (split <;> skip)
    | intro _
macro_rules | `(tactic| mute_leaf) => `(tactic| with_reducible exact Mute.minLoop _)
theorem Mute.maxLoop (x : Ptr) : Mute (maxLoop x : M (W K) Ptr) := by
  revert x
  refine RB.maxLoop.fixpoint_induct  _ Mute.admissible1 ?_
  intro f hf x
  repeat' first
    | with_reducible exact hf _
    | mute_leaf
    | with_reducible apply Nestl.Mute.bind
    | with_reducible apply Nestl.Mute.ite
    | with_reducible (split <;> skip)
    | intro _
macro_rules | `(tactic| mute_leaf) => `(tactic| with_reducible exact Mute.maxLoop _)
theorem Mute.sMinimum (x : Ptr) : Mute (sMinimum x : M (W K) Ptr) := by unfold RB.sMinimum; mutes
macro_rules | `(tactic| mute_leaf) => `(tactic| with_reducible exact Mute.sMinimum _)
theorem Mute.sMaximum (x : Ptr) : Mute (sMaximum x : M (W K) Ptr) := by unfold RB.sMaximum; mutes
macro_rules | `(tactic| mute_leaf) => `(tactic| with_reducible exact Mute.sMaximum _)
theorem Mute.incClimb (x y : Ptr) : Mute (incClimb x y : M (W K) (Ptr × Ptr)) := by
  revert x y
  refine RB.incClimb.fixpoint_induct  _ Mute.admissible2 ?_
  intro f hf x y
  repeat' first
    | with_reducible exact hf _ _
    | mute_leaf
    | with_reducible apply Nestl.Mute.bind
    | with_reducible apply Nestl.Mute.ite
    | with_reducible (split <;> skip)
    | intro _
macro_rules | `(tactic| mute_leaf) => `(tactic| with_reducible exact Mute.incClimb _ _)
theorem Mute.increment (x : Ptr) : Mute (increment x : M (W K) Ptr) := by unfold RB.increment; mutes
macro_rules | `(tactic| mute_leaf) => `(tactic| with_reducible exact Mute.increment _)
theorem Mute.decClimb (x y : Ptr) : Mute (decClimb x y : M (W K) Ptr) := by
  revert x y
  refine RB.decClimb.fixpoint_induct  _ Mute.admissible2 ?_
  intro f hf x y
  repeat' first
    | with_reducible exact hf _ _
    | mute_leaf
    | with_reducible apply Nestl.Mute.bind
    | with_reducible apply Nestl.Mute.ite
    | with_reducible (split <;> skip)
    | intro _
macro_rules | `(tactic| mute_leaf) => `(tactic| with_reducible exact Mute.decClimb _ _)
theorem Mute.decrement (x : Ptr) : Mute (decrement x : M (W K) Ptr) := by unfold RB.decrement; mutes
macro_rules | `(tactic| mute_leaf) => `(tactic| with_reducible exact Mute.decrement _)
theorem Mute.reparent (b x : Ptr) : Mute (reparent b x : M (W K) Unit) := by unfold RB.reparent; mutes
macro_rules | `(tactic| mute_leaf) => `(tactic| with_reducible exact Mute.reparent _ _)
theorem Mute.relinkL (hdr x y : Ptr) : Mute (relinkL hdr x y : M (W K) Unit) := by unfold RB.relinkL; mutes
macro_rules | `(tactic| mute_leaf) => `(tactic| with_reducible exact Mute.relinkL _ _ _)
theorem Mute.relinkR (hdr x y : Ptr) : Mute (relinkR hdr x y : M (W K) Unit) := by unfold RB.relinkR; mutes
macro_rules | `(tactic| mute_leaf) => `(tactic| with_reducible exact Mute.relinkR _ _ _)
theorem Mute.rotateLeft (hdr x : Ptr) : Mute (rotateLeft hdr x : M (W K) Unit) := by unfold RB.rotateLeft; mutes
macro_rules | `(tactic| mute_leaf) => `(tactic| with_reducible exact Mute.rotateLeft _ _)
theorem Mute.rotateRight (hdr x : Ptr) : Mute (rotateRight hdr x : M (W K) Unit) := by unfold RB.rotateRight; mutes
macro_rules | `(tactic| mute_leaf) => `(tactic| with_reducible exact Mute.rotateRight _ _)
theorem Mute.isRed (x : Ptr) : Mute (isRed x : M (W K) Bool) := by unfold RB.isRed; mutes
macro_rules | `(tactic| mute_leaf) => `(tactic| with_reducible exact Mute.isRed _)
theorem Mute.insFix (hdr : Ptr) (x : Ptr) : Mute (insFix hdr x : M (W K) Unit) := by
  revert x
  refine RB.insFix.fixpoint_induct hdr _ Mute.admissible1 ?_
  intro f hf x
  repeat' first
    | with_reducible exact hf _
    | mute_leaf
    | with_reducible apply Nestl.Mute.bind
    | with_reducible apply Nestl.Mute.ite
    | with_reducible (split <;> skip)
    | intro _
macro_rules | `(tactic| mute_leaf) => `(tactic| with_reducible exact Mute.insFix _ _)
theorem Mute.insLink (b : Bool) (x p hdr : Ptr) : Mute (insLink b x p hdr : M (W K) Unit) := by unfold RB.insLink; mutes
macro_rules | `(tactic| mute_leaf) => `(tactic| with_reducible exact Mute.insLink _ _ _ _)
theorem Mute.insertAndRebalance (b : Bool) (x p hdr : Ptr) : Mute (insertAndRebalance b x p hdr : M (W K) Unit) := by unfold RB.insertAndRebalance; mutes
macro_rules | `(tactic| mute_leaf) => `(tactic| with_reducible exact Mute.insertAndRebalance _ _ _ _)
theorem Mute.blackOrNull (v : Ptr) : Mute (blackOrNull v : M (W K) Bool) := by unfold RB.blackOrNull; mutes
macro_rules | `(tactic| mute_leaf) => `(tactic| with_reducible exact Mute.blackOrNull _)
theorem Mute.eraseLeftmost (z hdr x : Ptr) : Mute (eraseLeftmost z hdr x : M (W K) Unit) := by unfold RB.eraseLeftmost; mutes
macro_rules | `(tactic| mute_leaf) => `(tactic| with_reducible exact Mute.eraseLeftmost _ _ _)
theorem Mute.eraseRightmost (z hdr x : Ptr) : Mute (eraseRightmost z hdr x : M (W K) Unit) := by unfold RB.eraseRightmost; mutes
macro_rules | `(tactic| mute_leaf) => `(tactic| with_reducible exact Mute.eraseRightmost _ _ _)
theorem Mute.eraseUnlink (z hdr : Ptr) : Mute (eraseUnlink z hdr : M (W K) (Ptr × Ptr)) := by unfold RB.eraseUnlink; mutes
macro_rules | `(tactic| mute_leaf) => `(tactic| with_reducible exact Mute.eraseUnlink _ _)
theorem Mute.eraseFix (hdr : Ptr) (x xParent : Ptr) : Mute (eraseFix hdr x xParent : M (W K) Ptr) := by
  revert x xParent
  refine RB.eraseFix.fixpoint_induct hdr _ Mute.admissible2 ?_
  intro f hf x xParent
  repeat' first
    | with_reducible exact hf _ _
    | mute_leaf
    | with_reducible apply Nestl.Mute.bind
    | with_reducible apply Nestl.Mute.ite
    | with_reducible (split <;> skip)
    | intro _
macro_rules | `(tactic| mute_leaf) => `(tactic| with_reducible exact Mute.eraseFix _ _ _)
theorem Mute.rebalanceForErase (z hdr : Ptr) : Mute (rebalanceForErase z hdr : M (W K) Ptr) := by unfold RB.rebalanceForErase; mutes
macro_rules | `(tactic| mute_leaf) => `(tactic| with_reducible exact Mute.rebalanceForErase _ _)
theorem Mute.destroyVal (p : Ptr) : Mute (destroyVal p : M (W K) Unit) := by unfold RB.destroyVal; mutes
macro_rules | `(tactic| mute_leaf) => `(tactic| with_reducible exact Mute.destroyVal _)
theorem Mute.putNode (hdr p : Ptr) : Mute (putNode hdr p : M (W K) Unit) := by unfold RB.putNode; mutes
macro_rules | `(tactic| mute_leaf) => `(tactic| with_reducible exact Mute.putNode _ _)
theorem Mute.destroyNode (hdr p : Ptr) : Mute (destroyNode hdr p : M (W K) Unit) := by unfold RB.destroyNode; mutes
macro_rules | `(tactic| mute_leaf) => `(tactic| with_reducible exact Mute.destroyNode _ _)
theorem Mute.begin_ (hdr : Ptr) : Mute (begin_ hdr : M (W K) Ptr) := by unfold RB.begin_; mutes
macro_rules | `(tactic| mute_leaf) => `(tactic| with_reducible exact Mute.begin_ _)
theorem Mute.end_ (hdr : Ptr) : Mute (end_ hdr : M (W K) Ptr) := by unfold RB.end_; mutes
macro_rules | `(tactic| mute_leaf) => `(tactic| with_reducible exact Mute.end_ _)
theorem Mute.size (hdr : Ptr) : Mute (size hdr : M (W K) Nat) := by unfold RB.size; mutes
macro_rules | `(tactic| mute_leaf) => `(tactic| with_reducible exact Mute.size _)
theorem Mute.empty (hdr : Ptr) : Mute (empty hdr : M (W K) Bool) := by unfold RB.empty; mutes
macro_rules | `(tactic| mute_leaf) => `(tactic| with_reducible exact Mute.empty _)
theorem Mute.eraseAux (hdr z : Ptr) : Mute (eraseAux hdr z : M (W K) Unit) := by unfold RB.eraseAux; mutes
macro_rules | `(tactic| mute_leaf) => `(tactic| with_reducible exact Mute.eraseAux _ _)
theorem Mute.eraseIter (hdr z : Ptr) : Mute (eraseIter hdr z : M (W K) Ptr) := by unfold RB.eraseIter; mutes
macro_rules | `(tactic| mute_leaf) => `(tactic| with_reducible exact Mute.eraseIter _ _)
theorem Mute.mErase (hdr : Ptr) (x : Ptr) : Mute (mErase hdr x : M (W K) Unit) := by
  revert x
  refine RB.mErase.fixpoint_induct hdr _ Mute.admissible1 ?_
  intro f hf x
  repeat' first
    | with_reducible exact hf _
    | mute_leaf
    | with_reducible apply Nestl.Mute.bind
    | with_reducible apply Nestl.Mute.ite
    | with_reducible (split <;> skip)
    | intro _
macro_rules | `(tactic| mute_leaf) => `(tactic| with_reducible exact Mute.mErase _ _)
theorem Mute.clear (hdr : Ptr) : Mute (clear hdr : M (W K) Unit) := by unfold RB.clear; mutes
macro_rules | `(tactic| mute_leaf) => `(tactic| with_reducible exact Mute.clear _)
theorem Mute.eraseRangeLoop (hdr first last : Ptr) : Mute (eraseRangeLoop hdr first last : M (W K) Unit) := by
  revert first
  refine RB.eraseRangeLoop.fixpoint_induct hdr last _ Mute.admissible1 ?_
  intro f hf first
  repeat' first
    | with_reducible exact hf _
    | mute_leaf
    | with_reducible apply Nestl.Mute.bind
    | with_reducible apply Nestl.Mute.ite
    | intro _
macro_rules | `(tactic| mute_leaf) => `(tactic| with_reducible exact Mute.eraseRangeLoop _ _ _)
theorem Mute.eraseRange (hdr first last : Ptr) : Mute (eraseRange hdr first last : M (W K) Ptr) := by unfold RB.eraseRange; mutes
macro_rules | `(tactic| mute_leaf) => `(tactic| with_reducible exact Mute.eraseRange _ _ _)
theorem Mute.distance (first last : Ptr) : Mute (distance first last : M (W K) Nat) := by
  revert first
  refine RB.distance.fixpoint_induct last _ Mute.admissible1 ?_
  intro f hf first
  repeat' first
    | with_reducible exact hf _
    | mute_leaf
    | with_reducible apply Nestl.Mute.bind
    | with_reducible apply Nestl.Mute.ite
    | intro _
macro_rules | `(tactic| mute_leaf) => `(tactic| with_reducible exact Mute.distance _ _)
theorem Mute.destroyTree (hdr : Ptr) : Mute (destroyTree hdr : M (W K) Unit) := by unfold RB.destroyTree; mutes
macro_rules | `(tactic| mute_leaf) => `(tactic| with_reducible exact Mute.destroyTree _)
theorem Mute.moveData (hdr src : Ptr) : Mute (moveData hdr src : M (W K) Unit) := by unfold RB.moveData; mutes
macro_rules | `(tactic| mute_leaf) => `(tactic| with_reducible exact Mute.moveData _ _)
theorem Mute.moveCtor (src : Ptr) : Mute (moveCtor src : M (W K) Ptr) := by unfold RB.moveCtor; mutes
macro_rules | `(tactic| mute_leaf) => `(tactic| with_reducible exact Mute.moveCtor _)
theorem Mute.allocOnCopy (prop : Bool) (hdr src : Ptr) : Mute (allocOnCopy prop hdr src : M (W K) Unit) := by unfold RB.allocOnCopy; mutes
macro_rules | `(tactic| mute_leaf) => `(tactic| with_reducible exact Mute.allocOnCopy _ _ _)
theorem Mute.moveLinks (dst src : Ptr) : Mute (moveLinks dst src : M (W K) Unit) := by unfold RB.moveLinks; mutes
macro_rules | `(tactic| mute_leaf) => `(tactic| with_reducible exact Mute.moveLinks _ _)
theorem Mute.swapLinks (s t : Ptr) : Mute (swapLinks s t : M (W K) Unit) := by unfold RB.swapLinks; mutes
macro_rules | `(tactic| mute_leaf) => `(tactic| with_reducible exact Mute.swapLinks _ _)
theorem Mute.swapCounts (s t : Ptr) : Mute (swapCounts s t : M (W K) Unit) := by unfold RB.swapCounts; mutes
macro_rules | `(tactic| mute_leaf) => `(tactic| with_reducible exact Mute.swapCounts _ _)
theorem Mute.allocOnSwap (prop : Bool) (s t : Ptr) : Mute (allocOnSwap prop s t : M (W K) Unit) := by unfold RB.allocOnSwap; mutes
macro_rules | `(tactic| mute_leaf) => `(tactic| with_reducible exact Mute.allocOnSwap _ _ _)
theorem Mute.swapTrees (prop : Bool) (s t : Ptr) : Mute (swapTrees prop s t : M (W K) Unit) := by unfold RB.swapTrees; mutes
macro_rules | `(tactic| mute_leaf) => `(tactic| with_reducible exact Mute.swapTrees _ _ _)
theorem Mute.allocOnMove (prop : Bool) (hdr src : Ptr) : Mute (allocOnMove prop hdr src : M (W K) Unit) := by unfold RB.allocOnMove; mutes
macro_rules | `(tactic| mute_leaf) => `(tactic| with_reducible exact Mute.allocOnMove _ _ _)
theorem Mute.moveAssign (prop : Bool) (hdr src : Ptr) : Mute (moveAssign prop hdr src : M (W K) Bool) := by unfold RB.moveAssign; mutes
macro_rules | `(tactic| mute_leaf) => `(tactic| with_reducible exact Mute.moveAssign _ _ _)
theorem Mute.walkFrom (it last : Ptr) : Mute (Set.walkFrom it last : M (W K) (List (Ptr × K))) := by
  revert it
  refine Set.walkFrom.fixpoint_induct last _ Mute.admissible1 ?_
  intro f hf it
  repeat' first
    | with_reducible exact hf _
    | mute_leaf
    | with_reducible apply Nestl.Mute.bind
    | with_reducible apply Nestl.Mute.ite
    | intro _
macro_rules | `(tactic| mute_leaf) => `(tactic| with_reducible exact Mute.walkFrom _ _)

theorem Mute.createNode (hdr : Ptr) (v : K) : Mute (createNode hdr v) := by
  unfold RB.createNode RB.constructVal; mutes
macro_rules | `(tactic| mute_leaf) => `(tactic| with_reducible exact Mute.createNode _ _)
theorem Mute.cloneNode (hdr x : Ptr) : Mute (cloneNode hdr x : M (W K) Ptr) := by
  unfold RB.cloneNode; mutes
macro_rules | `(tactic| mute_leaf) => `(tactic| with_reducible exact Mute.cloneNode _ _)

theorem Mute.mCopy (hdr x p : Ptr) : Mute (mCopy hdr x p : M (W K) Ptr) := by
  revert x p
  refine RB.mCopy.fixpoint_induct (K := K) hdr (fun m => ∀ x p, Mute (m x p)) (fun m => ∀ a b c, Mute (m a b c))
    Mute.admissible2 Mute.admissible3 ?_ ?_
  all_goals
    intro f g hf hg
    repeat' first
      | with_reducible exact hf _ _
      | with_reducible exact hg _ _ _
      | mute_leaf
      | with_reducible apply Nestl.Mute.bind
      | with_reducible apply Nestl.Mute.ite
      | with_reducible (split <;> skip)
      | intro _
macro_rules | `(tactic| mute_leaf) => `(tactic| with_reducible exact Mute.mCopy _ _ _)

theorem Mute.copyNothrow (prop : Bool) (hdr src : Ptr) : Mute (copyNothrow prop hdr src : M (W K) Unit) := by
  unfold RB.copyNothrow; mutes
macro_rules | `(tactic| mute_leaf) => `(tactic| with_reducible exact Mute.copyNothrow _ _ _)

end Nestl.RB
