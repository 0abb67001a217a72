import Verif.RBTree.ModelExtra
import Verif.RBTree.ModelEqual
import Verif.RBTree.ModelSwap
import Verif.Set.Client
import Verif.Quiet
set_option autoImplicit false
/-
Operations of the tree that request no memory, construct no element and report no error.
-/
namespace Nestl.RB
open Lean.Order
variable {K : Type}

theorem Quiet.setColor (p : Ptr) (c : Color) : Quiet (setColor p c : M (W K) Unit) := by unfold RB.setColor; quietly
macro_rules | `(tactic| quiet_leaf) => `(tactic| with_reducible exact Quiet.setColor _ _)
theorem Quiet.setParent (p q : Ptr) : Quiet (setParent p q : M (W K) Unit) := by unfold RB.setParent; quietly
macro_rules | `(tactic| quiet_leaf) => `(tactic| with_reducible exact Quiet.setParent _ _)
theorem Quiet.setLeft (p q : Ptr) : Quiet (setLeft p q : M (W K) Unit) := by unfold RB.setLeft; quietly
macro_rules | `(tactic| quiet_leaf) => `(tactic| with_reducible exact Quiet.setLeft _ _)
theorem Quiet.setRight (p q : Ptr) : Quiet (setRight p q : M (W K) Unit) := by unfold RB.setRight; quietly
macro_rules | `(tactic| quiet_leaf) => `(tactic| with_reducible exact Quiet.setRight _ _)
theorem Quiet.setCount (p : Ptr) (f : Nat → Nat) : Quiet (setCount p f : M (W K) Unit) := by unfold RB.setCount; quietly
macro_rules | `(tactic| quiet_leaf) => `(tactic| with_reducible exact Quiet.setCount _ _)
theorem Quiet.keyOf (p : Ptr) : Quiet (keyOf p : M (W K) K) := by unfold RB.keyOf; quietly
macro_rules | `(tactic| quiet_leaf) => `(tactic| with_reducible exact Quiet.keyOf _)
theorem Quiet.newTree (a : Nat) : Quiet (newTree a : M (W K) Ptr) := by unfold RB.newTree; quietly
macro_rules | `(tactic| quiet_leaf) => `(tactic| with_reducible exact Quiet.newTree _)
theorem Quiet.minLoop (x : Ptr) : Quiet (minLoop x : M (W K) Ptr) := by
  revert x
  refine RB.minLoop.fixpoint_induct  _ Quiet.admissible1 ?_
  intro f hf x
  repeat' first
    | with_reducible exact hf _
    | quiet_leaf
    | with_reducible apply Nestl.Quiet.bind
    | with_reducible apply Nestl.Quiet.ite
    | with_reducible (split <;> skip)
    | intro _
macro_rules | `(tactic| quiet_leaf) => `(tactic| with_reducible exact Quiet.minLoop _)
theorem Quiet.maxLoop (x : Ptr) : Quiet (maxLoop x : M (W K) Ptr) := by
  revert x
  refine RB.maxLoop.fixpoint_induct  _ Quiet.admissible1 ?_
  intro f hf x
  repeat' first
    | with_reducible exact hf _
    | quiet_leaf
    | with_reducible apply Nestl.Quiet.bind
    | with_reducible apply Nestl.Quiet.ite
    | with_reducible (split <;> skip)
    | intro _
macro_rules | `(tactic| quiet_leaf) => `(tactic| with_reducible exact Quiet.maxLoop _)
theorem Quiet.sMinimum (x : Ptr) : Quiet (sMinimum x : M (W K) Ptr) := by unfold RB.sMinimum; quietly
macro_rules | `(tactic| quiet_leaf) => `(tactic| with_reducible exact Quiet.sMinimum _)
theorem Quiet.sMaximum (x : Ptr) : Quiet (sMaximum x : M (W K) Ptr) := by unfold RB.sMaximum; quietly
macro_rules | `(tactic| quiet_leaf) => `(tactic| with_reducible exact Quiet.sMaximum _)
theorem Quiet.incClimb (x y : Ptr) : Quiet (incClimb x y : M (W K) (Ptr × Ptr)) := by
  revert x y
  refine RB.incClimb.fixpoint_induct  _ Quiet.admissible2 ?_
  intro f hf x y
  repeat' first
    | with_reducible exact hf _ _
    | quiet_leaf
    | with_reducible apply Nestl.Quiet.bind
    | with_reducible apply Nestl.Quiet.ite
    | with_reducible (split <;> skip)
    | intro _
macro_rules | `(tactic| quiet_leaf) => `(tactic| with_reducible exact Quiet.incClimb _ _)
theorem Quiet.increment (x : Ptr) : Quiet (increment x : M (W K) Ptr) := by unfold RB.increment; quietly
macro_rules | `(tactic| quiet_leaf) => `(tactic| with_reducible exact Quiet.increment _)
theorem Quiet.decClimb (x y : Ptr) : Quiet (decClimb x y : M (W K) Ptr) := by
  revert x y
  refine RB.decClimb.fixpoint_induct  _ Quiet.admissible2 ?_
  intro f hf x y
  repeat' first
    | with_reducible exact hf _ _
    | quiet_leaf
    | with_reducible apply Nestl.Quiet.bind
    | with_reducible apply Nestl.Quiet.ite
    | with_reducible (split <;> skip)
    | intro _
macro_rules | `(tactic| quiet_leaf) => `(tactic| with_reducible exact Quiet.decClimb _ _)
theorem Quiet.decrement (x : Ptr) : Quiet (decrement x : M (W K) Ptr) := by unfold RB.decrement; quietly
macro_rules | `(tactic| quiet_leaf) => `(tactic| with_reducible exact Quiet.decrement _)
theorem Quiet.reparent (b x : Ptr) : Quiet (reparent b x : M (W K) Unit) := by unfold RB.reparent; quietly
macro_rules | `(tactic| quiet_leaf) => `(tactic| with_reducible exact Quiet.reparent _ _)
theorem Quiet.relinkL (hdr x y : Ptr) : Quiet (relinkL hdr x y : M (W K) Unit) := by unfold RB.relinkL; quietly
macro_rules | `(tactic| quiet_leaf) => `(tactic| with_reducible exact Quiet.relinkL _ _ _)
theorem Quiet.relinkR (hdr x y : Ptr) : Quiet (relinkR hdr x y : M (W K) Unit) := by unfold RB.relinkR; quietly
macro_rules | `(tactic| quiet_leaf) => `(tactic| with_reducible exact Quiet.relinkR _ _ _)
theorem Quiet.rotateLeft (hdr x : Ptr) : Quiet (rotateLeft hdr x : M (W K) Unit) := by unfold RB.rotateLeft; quietly
macro_rules | `(tactic| quiet_leaf) => `(tactic| with_reducible exact Quiet.rotateLeft _ _)
theorem Quiet.rotateRight (hdr x : Ptr) : Quiet (rotateRight hdr x : M (W K) Unit) := by unfold RB.rotateRight; quietly
macro_rules | `(tactic| quiet_leaf) => `(tactic| with_reducible exact Quiet.rotateRight _ _)
theorem Quiet.isRed (x : Ptr) : Quiet (isRed x : M (W K) Bool) := by unfold RB.isRed; quietly
macro_rules | `(tactic| quiet_leaf) => `(tactic| with_reducible exact Quiet.isRed _)
theorem Quiet.insFix (hdr : Ptr) (x : Ptr) : Quiet (insFix hdr x : M (W K) Unit) := by
  revert x
  refine RB.insFix.fixpoint_induct hdr _ Quiet.admissible1 ?_
  intro f hf x
  repeat' first
    | with_reducible exact hf _
    | quiet_leaf
    | with_reducible apply Nestl.Quiet.bind
    | with_reducible apply Nestl.Quiet.ite
    | with_reducible (split <;> skip)
    | intro _
macro_rules | `(tactic| quiet_leaf) => `(tactic| with_reducible exact Quiet.insFix _ _)
theorem Quiet.insLink (b : Bool) (x p hdr : Ptr) : Quiet (insLink b x p hdr : M (W K) Unit) := by unfold RB.insLink; quietly
macro_rules | `(tactic| quiet_leaf) => `(tactic| with_reducible exact Quiet.insLink _ _ _ _)
theorem Quiet.insertAndRebalance (b : Bool) (x p hdr : Ptr) : Quiet (insertAndRebalance b x p hdr : M (W K) Unit) := by unfold RB.insertAndRebalance; quietly
macro_rules | `(tactic| quiet_leaf) => `(tactic| with_reducible exact Quiet.insertAndRebalance _ _ _ _)
theorem Quiet.blackOrNull (v : Ptr) : Quiet (blackOrNull v : M (W K) Bool) := by unfold RB.blackOrNull; quietly
macro_rules | `(tactic| quiet_leaf) => `(tactic| with_reducible exact Quiet.blackOrNull _)
theorem Quiet.eraseLeftmost (z hdr x : Ptr) : Quiet (eraseLeftmost z hdr x : M (W K) Unit) := by unfold RB.eraseLeftmost; quietly
macro_rules | `(tactic| quiet_leaf) => `(tactic| with_reducible exact Quiet.eraseLeftmost _ _ _)
theorem Quiet.eraseRightmost (z hdr x : Ptr) : Quiet (eraseRightmost z hdr x : M (W K) Unit) := by unfold RB.eraseRightmost; quietly
macro_rules | `(tactic| quiet_leaf) => `(tactic| with_reducible exact Quiet.eraseRightmost _ _ _)
theorem Quiet.eraseUnlink (z hdr : Ptr) : Quiet (eraseUnlink z hdr : M (W K) (Ptr × Ptr)) := by unfold RB.eraseUnlink; quietly
macro_rules | `(tactic| quiet_leaf) => `(tactic| with_reducible exact Quiet.eraseUnlink _ _)
theorem Quiet.eraseFix (hdr : Ptr) (x xParent : Ptr) : Quiet (eraseFix hdr x xParent : M (W K) Ptr) := by
  revert x xParent
  refine RB.eraseFix.fixpoint_induct hdr _ Quiet.admissible2 ?_
  intro f hf x xParent
  repeat' first
    | with_reducible exact hf _ _
    | quiet_leaf
    | with_reducible apply Nestl.Quiet.bind
    | with_reducible apply Nestl.Quiet.ite
    | with_reducible (split <;> skip)
    | intro _
macro_rules | `(tactic| quiet_leaf) => `(tactic| with_reducible exact Quiet.eraseFix _ _ _)
theorem Quiet.rebalanceForErase (z hdr : Ptr) : Quiet (rebalanceForErase z hdr : M (W K) Ptr) := by unfold RB.rebalanceForErase; quietly
macro_rules | `(tactic| quiet_leaf) => `(tactic| with_reducible exact Quiet.rebalanceForErase _ _)
theorem Quiet.destroyVal (p : Ptr) : Quiet (destroyVal p : M (W K) Unit) := by unfold RB.destroyVal; quietly
macro_rules | `(tactic| quiet_leaf) => `(tactic| with_reducible exact Quiet.destroyVal _)
theorem Quiet.putNode (hdr p : Ptr) : Quiet (putNode hdr p : M (W K) Unit) := by unfold RB.putNode; quietly
macro_rules | `(tactic| quiet_leaf) => `(tactic| with_reducible exact Quiet.putNode _ _)
theorem Quiet.destroyNode (hdr p : Ptr) : Quiet (destroyNode hdr p : M (W K) Unit) := by unfold RB.destroyNode; quietly
macro_rules | `(tactic| quiet_leaf) => `(tactic| with_reducible exact Quiet.destroyNode _ _)
theorem Quiet.begin_ (hdr : Ptr) : Quiet (begin_ hdr : M (W K) Ptr) := by unfold RB.begin_; quietly
macro_rules | `(tactic| quiet_leaf) => `(tactic| with_reducible exact Quiet.begin_ _)
theorem Quiet.end_ (hdr : Ptr) : Quiet (end_ hdr : M (W K) Ptr) := by unfold RB.end_; quietly
macro_rules | `(tactic| quiet_leaf) => `(tactic| with_reducible exact Quiet.end_ _)
theorem Quiet.size (hdr : Ptr) : Quiet (size hdr : M (W K) Nat) := by unfold RB.size; quietly
macro_rules | `(tactic| quiet_leaf) => `(tactic| with_reducible exact Quiet.size _)
theorem Quiet.empty (hdr : Ptr) : Quiet (empty hdr : M (W K) Bool) := by unfold RB.empty; quietly
macro_rules | `(tactic| quiet_leaf) => `(tactic| with_reducible exact Quiet.empty _)
theorem Quiet.insDescend (lt : K → K → Bool) (k : K) (x y : Ptr) (comp : Bool) : Quiet (insDescend lt k x y comp : M (W K) (Ptr × Bool)) := by
  revert x y comp
  refine RB.insDescend.fixpoint_induct lt k _ Quiet.admissible3 ?_
  intro f hf x y comp
  repeat' first
    | with_reducible exact hf _ _ _
    | quiet_leaf
    | with_reducible apply Nestl.Quiet.bind
    | with_reducible apply Nestl.Quiet.ite
    | with_reducible (split <;> skip)
    | intro _
macro_rules | `(tactic| quiet_leaf) => `(tactic| with_reducible exact Quiet.insDescend _ _ _ _ _)
theorem Quiet.getInsertUniquePos (lt : K → K → Bool) (hdr : Ptr) (k : K) : Quiet (getInsertUniquePos lt hdr k : M (W K) (Ptr × Ptr)) := by unfold RB.getInsertUniquePos; quietly
macro_rules | `(tactic| quiet_leaf) => `(tactic| with_reducible exact Quiet.getInsertUniquePos _ _ _)
theorem Quiet.lowerBound (lt : K → K → Bool) (k : K) (x y : Ptr) : Quiet (lowerBound lt k x y : M (W K) Ptr) := by
  revert x y
  refine RB.lowerBound.fixpoint_induct lt k _ Quiet.admissible2 ?_
  intro f hf x y
  repeat' first
    | with_reducible exact hf _ _
    | quiet_leaf
    | with_reducible apply Nestl.Quiet.bind
    | with_reducible apply Nestl.Quiet.ite
    | with_reducible (split <;> skip)
    | intro _
macro_rules | `(tactic| quiet_leaf) => `(tactic| with_reducible exact Quiet.lowerBound _ _ _ _)
theorem Quiet.upperBound (lt : K → K → Bool) (k : K) (x y : Ptr) : Quiet (upperBound lt k x y : M (W K) Ptr) := by
  revert x y
  refine RB.upperBound.fixpoint_induct lt k _ Quiet.admissible2 ?_
  intro f hf x y
  repeat' first
    | with_reducible exact hf _ _
    | quiet_leaf
    | with_reducible apply Nestl.Quiet.bind
    | with_reducible apply Nestl.Quiet.ite
    | with_reducible (split <;> skip)
    | intro _
macro_rules | `(tactic| quiet_leaf) => `(tactic| with_reducible exact Quiet.upperBound _ _ _ _)
theorem Quiet.equalRangeLoop (lt : K → K → Bool) (k : K) (x y : Ptr) : Quiet (equalRangeLoop lt k x y : M (W K) (Ptr × Ptr)) := by
  revert x y
  refine RB.equalRangeLoop.fixpoint_induct lt k _ Quiet.admissible2 ?_
  intro f hf x y
  repeat' first
    | with_reducible exact hf _ _
    | quiet_leaf
    | with_reducible apply Nestl.Quiet.bind
    | with_reducible apply Nestl.Quiet.ite
    | with_reducible (split <;> skip)
    | intro _
macro_rules | `(tactic| quiet_leaf) => `(tactic| with_reducible exact Quiet.equalRangeLoop _ _ _ _)
theorem Quiet.equalRange (lt : K → K → Bool) (hdr : Ptr) (k : K) : Quiet (equalRange lt hdr k : M (W K) (Ptr × Ptr)) := by unfold RB.equalRange; quietly
macro_rules | `(tactic| quiet_leaf) => `(tactic| with_reducible exact Quiet.equalRange _ _ _)
theorem Quiet.find (lt : K → K → Bool) (hdr : Ptr) (k : K) : Quiet (find lt hdr k : M (W K) Ptr) := by unfold RB.find; quietly
macro_rules | `(tactic| quiet_leaf) => `(tactic| with_reducible exact Quiet.find _ _ _)
theorem Quiet.eraseAux (hdr z : Ptr) : Quiet (eraseAux hdr z : M (W K) Unit) := by unfold RB.eraseAux; quietly
macro_rules | `(tactic| quiet_leaf) => `(tactic| with_reducible exact Quiet.eraseAux _ _)
theorem Quiet.eraseIter (hdr z : Ptr) : Quiet (eraseIter hdr z : M (W K) Ptr) := by unfold RB.eraseIter; quietly
macro_rules | `(tactic| quiet_leaf) => `(tactic| with_reducible exact Quiet.eraseIter _ _)
theorem Quiet.mErase (hdr : Ptr) (x : Ptr) : Quiet (mErase hdr x : M (W K) Unit) := by
  revert x
  refine RB.mErase.fixpoint_induct hdr _ Quiet.admissible1 ?_
  intro f hf x
  repeat' first
    | with_reducible exact hf _
    | quiet_leaf
    | with_reducible apply Nestl.Quiet.bind
    | with_reducible apply Nestl.Quiet.ite
    | with_reducible (split <;> skip)
    | intro _
macro_rules | `(tactic| quiet_leaf) => `(tactic| with_reducible exact Quiet.mErase _ _)
theorem Quiet.clear (hdr : Ptr) : Quiet (clear hdr : M (W K) Unit) := by unfold RB.clear; quietly
macro_rules | `(tactic| quiet_leaf) => `(tactic| with_reducible exact Quiet.clear _)
theorem Quiet.eraseRangeLoop (hdr first last : Ptr) : Quiet (eraseRangeLoop hdr first last : M (W K) Unit) := by
  revert first
  refine RB.eraseRangeLoop.fixpoint_induct hdr last _ Quiet.admissible1 ?_
  intro f hf first
  repeat' first
    | with_reducible exact hf _
    | quiet_leaf
    | with_reducible apply Nestl.Quiet.bind
    | with_reducible apply Nestl.Quiet.ite
    | intro _
macro_rules | `(tactic| quiet_leaf) => `(tactic| with_reducible exact Quiet.eraseRangeLoop _ _ _)
theorem Quiet.eraseRange (hdr first last : Ptr) : Quiet (eraseRange hdr first last : M (W K) Ptr) := by unfold RB.eraseRange; quietly
macro_rules | `(tactic| quiet_leaf) => `(tactic| with_reducible exact Quiet.eraseRange _ _ _)
theorem Quiet.eraseKey (lt : K → K → Bool) (hdr : Ptr) (k : K) : Quiet (eraseKey lt hdr k : M (W K) Nat) := by unfold RB.eraseKey; quietly
macro_rules | `(tactic| quiet_leaf) => `(tactic| with_reducible exact Quiet.eraseKey _ _ _)
theorem Quiet.distance (first last : Ptr) : Quiet (distance first last : M (W K) Nat) := by
  revert first
  refine RB.distance.fixpoint_induct last _ Quiet.admissible1 ?_
  intro f hf first
  repeat' first
    | with_reducible exact hf _
    | quiet_leaf
    | with_reducible apply Nestl.Quiet.bind
    | with_reducible apply Nestl.Quiet.ite
    | intro _
macro_rules | `(tactic| quiet_leaf) => `(tactic| with_reducible exact Quiet.distance _ _)
theorem Quiet.count (lt : K → K → Bool) (hdr : Ptr) (k : K) : Quiet (count lt hdr k : M (W K) Nat) := by unfold RB.count; quietly
macro_rules | `(tactic| quiet_leaf) => `(tactic| with_reducible exact Quiet.count _ _ _)
theorem Quiet.destroyTree (hdr : Ptr) : Quiet (destroyTree hdr : M (W K) Unit) := by unfold RB.destroyTree; quietly
macro_rules | `(tactic| quiet_leaf) => `(tactic| with_reducible exact Quiet.destroyTree _)
theorem Quiet.moveData (hdr src : Ptr) : Quiet (moveData hdr src : M (W K) Unit) := by unfold RB.moveData; quietly
macro_rules | `(tactic| quiet_leaf) => `(tactic| with_reducible exact Quiet.moveData _ _)
theorem Quiet.moveCtor (src : Ptr) : Quiet (moveCtor src : M (W K) Ptr) := by unfold RB.moveCtor; quietly
macro_rules | `(tactic| quiet_leaf) => `(tactic| with_reducible exact Quiet.moveCtor _)
theorem Quiet.getInsertEqualPos (lt : K → K → Bool) (hdr : Ptr) (k : K) : Quiet (getInsertEqualPos lt hdr k : M (W K) (Ptr × Ptr)) := by unfold RB.getInsertEqualPos; quietly
macro_rules | `(tactic| quiet_leaf) => `(tactic| with_reducible exact Quiet.getInsertEqualPos _ _ _)
theorem Quiet.getInsertHintEqualPos (lt : K → K → Bool) (hdr pos : Ptr) (k : K) : Quiet (getInsertHintEqualPos lt hdr pos k : M (W K) (Ptr × Ptr)) := by unfold RB.getInsertHintEqualPos; quietly
macro_rules | `(tactic| quiet_leaf) => `(tactic| with_reducible exact Quiet.getInsertHintEqualPos _ _ _ _)
theorem Quiet.lowerDescend (lt : K → K → Bool) (k : K) (x y : Ptr) : Quiet (lowerDescend lt k x y : M (W K) Ptr) := by
  revert x y
  refine RB.lowerDescend.fixpoint_induct lt k _ Quiet.admissible2 ?_
  intro f hf x y
  repeat' first
    | with_reducible exact hf _ _
    | quiet_leaf
    | with_reducible apply Nestl.Quiet.bind
    | with_reducible apply Nestl.Quiet.ite
    | with_reducible (split <;> skip)
    | intro _
macro_rules | `(tactic| quiet_leaf) => `(tactic| with_reducible exact Quiet.lowerDescend _ _ _ _)
theorem Quiet.insertLowerNode (lt : K → K → Bool) (hdr p z : Ptr) : Quiet (insertLowerNode lt hdr p z : M (W K) Ptr) := by unfold RB.insertLowerNode; quietly
macro_rules | `(tactic| quiet_leaf) => `(tactic| with_reducible exact Quiet.insertLowerNode _ _ _ _)
theorem Quiet.insertEqualLowerNode (lt : K → K → Bool) (hdr z : Ptr) : Quiet (insertEqualLowerNode lt hdr z : M (W K) Ptr) := by unfold RB.insertEqualLowerNode; quietly
macro_rules | `(tactic| quiet_leaf) => `(tactic| with_reducible exact Quiet.insertEqualLowerNode _ _ _)
theorem Quiet.allocOnCopy (prop : Bool) (hdr src : Ptr) : Quiet (allocOnCopy prop hdr src : M (W K) Unit) := by unfold RB.allocOnCopy; quietly
macro_rules | `(tactic| quiet_leaf) => `(tactic| with_reducible exact Quiet.allocOnCopy _ _ _)
theorem Quiet.getInsertHintUniquePos (lt : K → K → Bool) (hdr pos : Ptr) (k : K) : Quiet (getInsertHintUniquePos lt hdr pos k : M (W K) (Ptr × Ptr)) := by unfold RB.getInsertHintUniquePos; quietly
macro_rules | `(tactic| quiet_leaf) => `(tactic| with_reducible exact Quiet.getInsertHintUniquePos _ _ _ _)
theorem Quiet.insertNode (lt : K → K → Bool) (hdr x p z : Ptr) : Quiet (insertNode lt hdr x p z : M (W K) Ptr) := by unfold RB.insertNode; quietly
macro_rules | `(tactic| quiet_leaf) => `(tactic| with_reducible exact Quiet.insertNode _ _ _ _ _)
theorem Quiet.lowerBoundKey (lt : K → K → Bool) (hdr : Ptr) (k : K) : Quiet (lowerBoundKey lt hdr k : M (W K) Ptr) := by unfold RB.lowerBoundKey; quietly
macro_rules | `(tactic| quiet_leaf) => `(tactic| with_reducible exact Quiet.lowerBoundKey _ _ _)
theorem Quiet.upperBoundKey (lt : K → K → Bool) (hdr : Ptr) (k : K) : Quiet (upperBoundKey lt hdr k : M (W K) Ptr) := by unfold RB.upperBoundKey; quietly
macro_rules | `(tactic| quiet_leaf) => `(tactic| with_reducible exact Quiet.upperBoundKey _ _ _)
theorem Quiet.moveLinks (dst src : Ptr) : Quiet (moveLinks dst src : M (W K) Unit) := by unfold RB.moveLinks; quietly
macro_rules | `(tactic| quiet_leaf) => `(tactic| with_reducible exact Quiet.moveLinks _ _)
theorem Quiet.swapLinks (s t : Ptr) : Quiet (swapLinks s t : M (W K) Unit) := by unfold RB.swapLinks; quietly
macro_rules | `(tactic| quiet_leaf) => `(tactic| with_reducible exact Quiet.swapLinks _ _)
theorem Quiet.swapCounts (s t : Ptr) : Quiet (swapCounts s t : M (W K) Unit) := by unfold RB.swapCounts; quietly
macro_rules | `(tactic| quiet_leaf) => `(tactic| with_reducible exact Quiet.swapCounts _ _)
theorem Quiet.allocOnSwap (prop : Bool) (s t : Ptr) : Quiet (allocOnSwap prop s t : M (W K) Unit) := by unfold RB.allocOnSwap; quietly
macro_rules | `(tactic| quiet_leaf) => `(tactic| with_reducible exact Quiet.allocOnSwap _ _ _)
theorem Quiet.swapTrees (prop : Bool) (s t : Ptr) : Quiet (swapTrees prop s t : M (W K) Unit) := by unfold RB.swapTrees; quietly
macro_rules | `(tactic| quiet_leaf) => `(tactic| with_reducible exact Quiet.swapTrees _ _ _)
theorem Quiet.allocOnMove (prop : Bool) (hdr src : Ptr) : Quiet (allocOnMove prop hdr src : M (W K) Unit) := by unfold RB.allocOnMove; quietly
macro_rules | `(tactic| quiet_leaf) => `(tactic| with_reducible exact Quiet.allocOnMove _ _ _)
theorem Quiet.moveAssign (prop : Bool) (hdr src : Ptr) : Quiet (moveAssign prop hdr src : M (W K) Bool) := by unfold RB.moveAssign; quietly
macro_rules | `(tactic| quiet_leaf) => `(tactic| with_reducible exact Quiet.moveAssign _ _ _)
theorem Quiet.eraseKeys (lt : K → K → Bool) (hdr : Ptr) (ks : List K) : Quiet (eraseKeys lt hdr ks : M (W K) Unit) := by
  induction ks with
  | nil => exact .pure _
  | cons k ks ih => unfold RB.eraseKeys; quietly
macro_rules | `(tactic| quiet_leaf) => `(tactic| with_reducible exact Quiet.eraseKeys _ _ _)
theorem Quiet.walkFrom (it last : Ptr) : Quiet (Set.walkFrom it last : M (W K) (List (Ptr × K))) := by
  revert it
  refine Set.walkFrom.fixpoint_induct last _ Quiet.admissible1 ?_
  intro f hf it
  repeat' first
    | with_reducible exact hf _
    | quiet_leaf
    | with_reducible apply Nestl.Quiet.bind
    | with_reducible apply Nestl.Quiet.ite
    | intro _
macro_rules | `(tactic| quiet_leaf) => `(tactic| with_reducible exact Quiet.walkFrom _ _)

end Nestl.RB
