import Verif.RBTree.ModelExtra
import Verif.RBTree.ModelEqual
import Verif.RBTree.ModelSwap
import Verif.Full.Client
import Verif.Local
set_option autoImplicit false
/-
The operations of the tree touch nothing but the memory they are given.
-/
namespace Nestl.RB
open Lean.Order
variable {K : Type}

theorem Local.setColor (p : Ptr) (c : Color) : Local (setColor p c : M (W K) Unit) := by unfold RB.setColor; locally
macro_rules | `(tactic| local_leaf) => `(tactic| with_reducible exact Local.setColor _ _)
theorem Local.setParent (p q : Ptr) : Local (setParent p q : M (W K) Unit) := by unfold RB.setParent; locally
macro_rules | `(tactic| local_leaf) => `(tactic| with_reducible exact Local.setParent _ _)
theorem Local.setLeft (p q : Ptr) : Local (setLeft p q : M (W K) Unit) := by unfold RB.setLeft; locally
macro_rules | `(tactic| local_leaf) => `(tactic| with_reducible exact Local.setLeft _ _)
theorem Local.setRight (p q : Ptr) : Local (setRight p q : M (W K) Unit) := by unfold RB.setRight; locally
macro_rules | `(tactic| local_leaf) => `(tactic| with_reducible exact Local.setRight _ _)
theorem Local.setCount (p : Ptr) (f : Nat → Nat) : Local (setCount p f : M (W K) Unit) := by unfold RB.setCount; locally
macro_rules | `(tactic| local_leaf) => `(tactic| with_reducible exact Local.setCount _ _)
theorem Local.keyOf (p : Ptr) : Local (keyOf p : M (W K) K) := by unfold RB.keyOf; locally
macro_rules | `(tactic| local_leaf) => `(tactic| with_reducible exact Local.keyOf _)
theorem Local.newTree (a : Nat) : Local (newTree a : M (W K) Ptr) := by unfold RB.newTree; locally
macro_rules | `(tactic| local_leaf) => `(tactic| with_reducible exact Local.newTree _)
theorem Local.minLoop (x : Ptr) : Local (minLoop x : M (W K) Ptr) := by
  revert x
  refine RB.minLoop.fixpoint_induct  _ Local.admissible1 ?_
  intro f hf x
  repeat' first
    | with_reducible exact hf _
    | local_leaf
    | with_reducible apply Nestl.Local.bind
    | with_reducible apply Nestl.Local.ite
    | with_reducible (split <;> skip)
    | intro _
macro_rules | `(tactic| local_leaf) => `(tactic| with_reducible exact Local.minLoop _)
theorem Local.maxLoop (x : Ptr) : Local (maxLoop x : M (W K) Ptr) := by
  revert x
  refine RB.maxLoop.fixpoint_induct  _ Local.admissible1 ?_
  intro f hf x
  repeat' first
    | with_reducible exact hf _
    | local_leaf
    | with_reducible apply Nestl.Local.bind
    | with_reducible apply Nestl.Local.ite
    | with_reducible (split <;> skip)
    | intro _
macro_rules | `(tactic| local_leaf) => `(tactic| with_reducible exact Local.maxLoop _)
theorem Local.sMinimum (x : Ptr) : Local (sMinimum x : M (W K) Ptr) := by unfold RB.sMinimum; locally
macro_rules | `(tactic| local_leaf) => `(tactic| with_reducible exact Local.sMinimum _)
theorem Local.sMaximum (x : Ptr) : Local (sMaximum x : M (W K) Ptr) := by unfold RB.sMaximum; locally
macro_rules | `(tactic| local_leaf) => `(tactic| with_reducible exact Local.sMaximum _)
theorem Local.incClimb (x y : Ptr) : Local (incClimb x y : M (W K) (Ptr × Ptr)) := by
  revert x y
  refine RB.incClimb.fixpoint_induct  _ Local.admissible2 ?_
  intro f hf x y
  repeat' first
    | with_reducible exact hf _ _
    | local_leaf
    | with_reducible apply Nestl.Local.bind
    | with_reducible apply Nestl.Local.ite
    | with_reducible (split <;> skip)
    | intro _
macro_rules | `(tactic| local_leaf) => `(tactic| with_reducible exact Local.incClimb _ _)
theorem Local.increment (x : Ptr) : Local (increment x : M (W K) Ptr) := by unfold RB.increment; locally
macro_rules | `(tactic| local_leaf) => `(tactic| with_reducible exact Local.increment _)
theorem Local.decClimb (x y : Ptr) : Local (decClimb x y : M (W K) Ptr) := by
  revert x y
  refine RB.decClimb.fixpoint_induct  _ Local.admissible2 ?_
  intro f hf x y
  repeat' first
    | with_reducible exact hf _ _
    | local_leaf
    | with_reducible apply Nestl.Local.bind
    | with_reducible apply Nestl.Local.ite
    | with_reducible (split <;> skip)
    | intro _
macro_rules | `(tactic| local_leaf) => `(tactic| with_reducible exact Local.decClimb _ _)
theorem Local.decrement (x : Ptr) : Local (decrement x : M (W K) Ptr) := by unfold RB.decrement; locally
macro_rules | `(tactic| local_leaf) => `(tactic| with_reducible exact Local.decrement _)
theorem Local.reparent (b x : Ptr) : Local (reparent b x : M (W K) Unit) := by unfold RB.reparent; locally
macro_rules | `(tactic| local_leaf) => `(tactic| with_reducible exact Local.reparent _ _)
theorem Local.relinkL (hdr x y : Ptr) : Local (relinkL hdr x y : M (W K) Unit) := by unfold RB.relinkL; locally
macro_rules | `(tactic| local_leaf) => `(tactic| with_reducible exact Local.relinkL _ _ _)
theorem Local.relinkR (hdr x y : Ptr) : Local (relinkR hdr x y : M (W K) Unit) := by unfold RB.relinkR; locally
macro_rules | `(tactic| local_leaf) => `(tactic| with_reducible exact Local.relinkR _ _ _)
theorem Local.rotateLeft (hdr x : Ptr) : Local (rotateLeft hdr x : M (W K) Unit) := by unfold RB.rotateLeft; locally
macro_rules | `(tactic| local_leaf) => `(tactic| with_reducible exact Local.rotateLeft _ _)
theorem Local.rotateRight (hdr x : Ptr) : Local (rotateRight hdr x : M (W K) Unit) := by unfold RB.rotateRight; locally
macro_rules | `(tactic| local_leaf) => `(tactic| with_reducible exact Local.rotateRight _ _)
theorem Local.isRed (x : Ptr) : Local (isRed x : M (W K) Bool) := by unfold RB.isRed; locally
macro_rules | `(tactic| local_leaf) => `(tactic| with_reducible exact Local.isRed _)
theorem Local.insFix (hdr : Ptr) (x : Ptr) : Local (insFix hdr x : M (W K) Unit) := by
  revert x
  refine RB.insFix.fixpoint_induct hdr _ Local.admissible1 ?_
  intro f hf x
  repeat' first
    | with_reducible exact hf _
    | local_leaf
    | with_reducible apply Nestl.Local.bind
    | with_reducible apply Nestl.Local.ite
    | with_reducible (split <;> skip)
    | intro _
macro_rules | `(tactic| local_leaf) => `(tactic| with_reducible exact Local.insFix _ _)
theorem Local.insLink (b : Bool) (x p hdr : Ptr) : Local (insLink b x p hdr : M (W K) Unit) := by unfold RB.insLink; locally
macro_rules | `(tactic| local_leaf) => `(tactic| with_reducible exact Local.insLink _ _ _ _)
theorem Local.insertAndRebalance (b : Bool) (x p hdr : Ptr) : Local (insertAndRebalance b x p hdr : M (W K) Unit) := by unfold RB.insertAndRebalance; locally
macro_rules | `(tactic| local_leaf) => `(tactic| with_reducible exact Local.insertAndRebalance _ _ _ _)
theorem Local.blackOrNull (v : Ptr) : Local (blackOrNull v : M (W K) Bool) := by unfold RB.blackOrNull; locally
macro_rules | `(tactic| local_leaf) => `(tactic| with_reducible exact Local.blackOrNull _)
theorem Local.eraseLeftmost (z hdr x : Ptr) : Local (eraseLeftmost z hdr x : M (W K) Unit) := by unfold RB.eraseLeftmost; locally
macro_rules | `(tactic| local_leaf) => `(tactic| with_reducible exact Local.eraseLeftmost _ _ _)
theorem Local.eraseRightmost (z hdr x : Ptr) : Local (eraseRightmost z hdr x : M (W K) Unit) := by unfold RB.eraseRightmost; locally
macro_rules | `(tactic| local_leaf) => `(tactic| with_reducible exact Local.eraseRightmost _ _ _)
theorem Local.eraseUnlink (z hdr : Ptr) : Local (eraseUnlink z hdr : M (W K) (Ptr × Ptr)) := by unfold RB.eraseUnlink; locally
macro_rules | `(tactic| local_leaf) => `(tactic| with_reducible exact Local.eraseUnlink _ _)
theorem Local.eraseFix (hdr : Ptr) (x xParent : Ptr) : Local (eraseFix hdr x xParent : M (W K) Ptr) := by
  revert x xParent
  refine RB.eraseFix.fixpoint_induct hdr _ Local.admissible2 ?_
  intro f hf x xParent
  repeat' first
    | with_reducible exact hf _ _
    | local_leaf
    | with_reducible apply Nestl.Local.bind
    | with_reducible apply Nestl.Local.ite
    | with_reducible (split <;> skip)
    | intro _
macro_rules | `(tactic| local_leaf) => `(tactic| with_reducible exact Local.eraseFix _ _ _)
theorem Local.rebalanceForErase (z hdr : Ptr) : Local (rebalanceForErase z hdr : M (W K) Ptr) := by unfold RB.rebalanceForErase; locally
macro_rules | `(tactic| local_leaf) => `(tactic| with_reducible exact Local.rebalanceForErase _ _)
theorem Local.destroyVal (p : Ptr) : Local (destroyVal p : M (W K) Unit) := by unfold RB.destroyVal; locally
macro_rules | `(tactic| local_leaf) => `(tactic| with_reducible exact Local.destroyVal _)
theorem Local.putNode (hdr p : Ptr) : Local (putNode hdr p : M (W K) Unit) := by unfold RB.putNode; locally
macro_rules | `(tactic| local_leaf) => `(tactic| with_reducible exact Local.putNode _ _)
theorem Local.destroyNode (hdr p : Ptr) : Local (destroyNode hdr p : M (W K) Unit) := by unfold RB.destroyNode; locally
macro_rules | `(tactic| local_leaf) => `(tactic| with_reducible exact Local.destroyNode _ _)
theorem Local.begin_ (hdr : Ptr) : Local (begin_ hdr : M (W K) Ptr) := by unfold RB.begin_; locally
macro_rules | `(tactic| local_leaf) => `(tactic| with_reducible exact Local.begin_ _)
theorem Local.end_ (hdr : Ptr) : Local (end_ hdr : M (W K) Ptr) := by unfold RB.end_; locally
macro_rules | `(tactic| local_leaf) => `(tactic| with_reducible exact Local.end_ _)
theorem Local.size (hdr : Ptr) : Local (size hdr : M (W K) Nat) := by unfold RB.size; locally
macro_rules | `(tactic| local_leaf) => `(tactic| with_reducible exact Local.size _)
theorem Local.empty (hdr : Ptr) : Local (empty hdr : M (W K) Bool) := by unfold RB.empty; locally
macro_rules | `(tactic| local_leaf) => `(tactic| with_reducible exact Local.empty _)
theorem Local.insDescend (lt : K → K → Bool) (k : K) (x y : Ptr) (comp : Bool) : Local (insDescend lt k x y comp : M (W K) (Ptr × Bool)) := by
  revert x y comp
  refine RB.insDescend.fixpoint_induct lt k _ Local.admissible3 ?_
  intro f hf x y comp
  repeat' first
    | with_reducible exact hf _ _ _
    | local_leaf
    | with_reducible apply Nestl.Local.bind
    | with_reducible apply Nestl.Local.ite
    | with_reducible (split <;> skip)
    | intro _
macro_rules | `(tactic| local_leaf) => `(tactic| with_reducible exact Local.insDescend _ _ _ _ _)
theorem Local.getInsertUniquePos (lt : K → K → Bool) (hdr : Ptr) (k : K) : Local (getInsertUniquePos lt hdr k : M (W K) (Ptr × Ptr)) := by unfold RB.getInsertUniquePos; locally
macro_rules | `(tactic| local_leaf) => `(tactic| with_reducible exact Local.getInsertUniquePos _ _ _)
theorem Local.lowerBound (lt : K → K → Bool) (k : K) (x y : Ptr) : Local (lowerBound lt k x y : M (W K) Ptr) := by
  revert x y
  refine RB.lowerBound.fixpoint_induct lt k _ Local.admissible2 ?_
  intro f hf x y
  repeat' first
    | with_reducible exact hf _ _
    | local_leaf
    | with_reducible apply Nestl.Local.bind
    | with_reducible apply Nestl.Local.ite
    | with_reducible (split <;> skip)
    | intro _
macro_rules | `(tactic| local_leaf) => `(tactic| with_reducible exact Local.lowerBound _ _ _ _)
theorem Local.upperBound (lt : K → K → Bool) (k : K) (x y : Ptr) : Local (upperBound lt k x y : M (W K) Ptr) := by
  revert x y
  refine RB.upperBound.fixpoint_induct lt k _ Local.admissible2 ?_
  intro f hf x y
  repeat' first
    | with_reducible exact hf _ _
    | local_leaf
    | with_reducible apply Nestl.Local.bind
    | with_reducible apply Nestl.Local.ite
    | with_reducible (split <;> skip)
    | intro _
macro_rules | `(tactic| local_leaf) => `(tactic| with_reducible exact Local.upperBound _ _ _ _)
theorem Local.equalRangeLoop (lt : K → K → Bool) (k : K) (x y : Ptr) : Local (equalRangeLoop lt k x y : M (W K) (Ptr × Ptr)) := by
  revert x y
  refine RB.equalRangeLoop.fixpoint_induct lt k _ Local.admissible2 ?_
  intro f hf x y
  repeat' first
    | with_reducible exact hf _ _
    | local_leaf
    | with_reducible apply Nestl.Local.bind
    | with_reducible apply Nestl.Local.ite
    | with_reducible (split <;> skip)
    | intro _
macro_rules | `(tactic| local_leaf) => `(tactic| with_reducible exact Local.equalRangeLoop _ _ _ _)
theorem Local.equalRange (lt : K → K → Bool) (hdr : Ptr) (k : K) : Local (equalRange lt hdr k : M (W K) (Ptr × Ptr)) := by unfold RB.equalRange; locally
macro_rules | `(tactic| local_leaf) => `(tactic| with_reducible exact Local.equalRange _ _ _)
theorem Local.find (lt : K → K → Bool) (hdr : Ptr) (k : K) : Local (find lt hdr k : M (W K) Ptr) := by unfold RB.find; locally
macro_rules | `(tactic| local_leaf) => `(tactic| with_reducible exact Local.find _ _ _)
theorem Local.eraseAux (hdr z : Ptr) : Local (eraseAux hdr z : M (W K) Unit) := by unfold RB.eraseAux; locally
macro_rules | `(tactic| local_leaf) => `(tactic| with_reducible exact Local.eraseAux _ _)
theorem Local.eraseIter (hdr z : Ptr) : Local (eraseIter hdr z : M (W K) Ptr) := by unfold RB.eraseIter; locally
macro_rules | `(tactic| local_leaf) => `(tactic| with_reducible exact Local.eraseIter _ _)
theorem Local.mErase (hdr : Ptr) (x : Ptr) : Local (mErase hdr x : M (W K) Unit) := by
  revert x
  refine RB.mErase.fixpoint_induct hdr _ Local.admissible1 ?_
  intro f hf x
  repeat' first
    | with_reducible exact hf _
    | local_leaf
    | with_reducible apply Nestl.Local.bind
    | with_reducible apply Nestl.Local.ite
    | with_reducible (split <;> skip)
    | intro _
macro_rules | `(tactic| local_leaf) => `(tactic| with_reducible exact Local.mErase _ _)
theorem Local.clear (hdr : Ptr) : Local (clear hdr : M (W K) Unit) := by unfold RB.clear; locally
macro_rules | `(tactic| local_leaf) => `(tactic| with_reducible exact Local.clear _)
theorem Local.eraseRangeLoop (hdr first last : Ptr) : Local (eraseRangeLoop hdr first last : M (W K) Unit) := by
  revert first
  refine RB.eraseRangeLoop.fixpoint_induct hdr last _ Local.admissible1 ?_
  intro f hf first
  repeat' first
    | with_reducible exact hf _
    | local_leaf
    | with_reducible apply Nestl.Local.bind
    | with_reducible apply Nestl.Local.ite
    | intro _
macro_rules | `(tactic| local_leaf) => `(tactic| with_reducible exact Local.eraseRangeLoop _ _ _)
theorem Local.eraseRange (hdr first last : Ptr) : Local (eraseRange hdr first last : M (W K) Ptr) := by unfold RB.eraseRange; locally
macro_rules | `(tactic| local_leaf) => `(tactic| with_reducible exact Local.eraseRange _ _ _)
theorem Local.eraseKey (lt : K → K → Bool) (hdr : Ptr) (k : K) : Local (eraseKey lt hdr k : M (W K) Nat) := by unfold RB.eraseKey; locally
macro_rules | `(tactic| local_leaf) => `(tactic| with_reducible exact Local.eraseKey _ _ _)
theorem Local.distance (first last : Ptr) : Local (distance first last : M (W K) Nat) := by
  revert first
  refine RB.distance.fixpoint_induct last _ Local.admissible1 ?_
  intro f hf first
  repeat' first
    | with_reducible exact hf _
    | local_leaf
    | with_reducible apply Nestl.Local.bind
    | with_reducible apply Nestl.Local.ite
    | intro _
macro_rules | `(tactic| local_leaf) => `(tactic| with_reducible exact Local.distance _ _)
theorem Local.count (lt : K → K → Bool) (hdr : Ptr) (k : K) : Local (count lt hdr k : M (W K) Nat) := by unfold RB.count; locally
macro_rules | `(tactic| local_leaf) => `(tactic| with_reducible exact Local.count _ _ _)
theorem Local.destroyTree (hdr : Ptr) : Local (destroyTree hdr : M (W K) Unit) := by unfold RB.destroyTree; locally
macro_rules | `(tactic| local_leaf) => `(tactic| with_reducible exact Local.destroyTree _)
theorem Local.moveData (hdr src : Ptr) : Local (moveData hdr src : M (W K) Unit) := by unfold RB.moveData; locally
macro_rules | `(tactic| local_leaf) => `(tactic| with_reducible exact Local.moveData _ _)
theorem Local.moveCtor (src : Ptr) : Local (moveCtor src : M (W K) Ptr) := by unfold RB.moveCtor; locally
macro_rules | `(tactic| local_leaf) => `(tactic| with_reducible exact Local.moveCtor _)
theorem Local.getInsertEqualPos (lt : K → K → Bool) (hdr : Ptr) (k : K) : Local (getInsertEqualPos lt hdr k : M (W K) (Ptr × Ptr)) := by unfold RB.getInsertEqualPos; locally
macro_rules | `(tactic| local_leaf) => `(tactic| with_reducible exact Local.getInsertEqualPos _ _ _)
theorem Local.getInsertHintEqualPos (lt : K → K → Bool) (hdr pos : Ptr) (k : K) : Local (getInsertHintEqualPos lt hdr pos k : M (W K) (Ptr × Ptr)) := by unfold RB.getInsertHintEqualPos; locally
macro_rules | `(tactic| local_leaf) => `(tactic| with_reducible exact Local.getInsertHintEqualPos _ _ _ _)
theorem Local.lowerDescend (lt : K → K → Bool) (k : K) (x y : Ptr) : Local (lowerDescend lt k x y : M (W K) Ptr) := by
  revert x y
  refine RB.lowerDescend.fixpoint_induct lt k _ Local.admissible2 ?_
  intro f hf x y
  repeat' first
    | with_reducible exact hf _ _
    | local_leaf
    | with_reducible apply Nestl.Local.bind
    | with_reducible apply Nestl.Local.ite
    | with_reducible (split <;> skip)
    | intro _
macro_rules | `(tactic| local_leaf) => `(tactic| with_reducible exact Local.lowerDescend _ _ _ _)
theorem Local.insertLowerNode (lt : K → K → Bool) (hdr p z : Ptr) : Local (insertLowerNode lt hdr p z : M (W K) Ptr) := by unfold RB.insertLowerNode; locally
macro_rules | `(tactic| local_leaf) => `(tactic| with_reducible exact Local.insertLowerNode _ _ _ _)
theorem Local.insertEqualLowerNode (lt : K → K → Bool) (hdr z : Ptr) : Local (insertEqualLowerNode lt hdr z : M (W K) Ptr) := by unfold RB.insertEqualLowerNode; locally
macro_rules | `(tactic| local_leaf) => `(tactic| with_reducible exact Local.insertEqualLowerNode _ _ _)
theorem Local.allocOnCopy (prop : Bool) (hdr src : Ptr) : Local (allocOnCopy prop hdr src : M (W K) Unit) := by unfold RB.allocOnCopy; locally
macro_rules | `(tactic| local_leaf) => `(tactic| with_reducible exact Local.allocOnCopy _ _ _)
theorem Local.getInsertHintUniquePos (lt : K → K → Bool) (hdr pos : Ptr) (k : K) : Local (getInsertHintUniquePos lt hdr pos k : M (W K) (Ptr × Ptr)) := by unfold RB.getInsertHintUniquePos; locally
macro_rules | `(tactic| local_leaf) => `(tactic| with_reducible exact Local.getInsertHintUniquePos _ _ _ _)
theorem Local.insertNode (lt : K → K → Bool) (hdr x p z : Ptr) : Local (insertNode lt hdr x p z : M (W K) Ptr) := by unfold RB.insertNode; locally
macro_rules | `(tactic| local_leaf) => `(tactic| with_reducible exact Local.insertNode _ _ _ _ _)
theorem Local.lowerBoundKey (lt : K → K → Bool) (hdr : Ptr) (k : K) : Local (lowerBoundKey lt hdr k : M (W K) Ptr) := by unfold RB.lowerBoundKey; locally
macro_rules | `(tactic| local_leaf) => `(tactic| with_reducible exact Local.lowerBoundKey _ _ _)
theorem Local.upperBoundKey (lt : K → K → Bool) (hdr : Ptr) (k : K) : Local (upperBoundKey lt hdr k : M (W K) Ptr) := by unfold RB.upperBoundKey; locally
macro_rules | `(tactic| local_leaf) => `(tactic| with_reducible exact Local.upperBoundKey _ _ _)
theorem Local.moveLinks (dst src : Ptr) : Local (moveLinks dst src : M (W K) Unit) := by unfold RB.moveLinks; locally
macro_rules | `(tactic| local_leaf) => `(tactic| with_reducible exact Local.moveLinks _ _)
theorem Local.swapLinks (s t : Ptr) : Local (swapLinks s t : M (W K) Unit) := by unfold RB.swapLinks; locally
macro_rules | `(tactic| local_leaf) => `(tactic| with_reducible exact Local.swapLinks _ _)
theorem Local.swapCounts (s t : Ptr) : Local (swapCounts s t : M (W K) Unit) := by unfold RB.swapCounts; locally
macro_rules | `(tactic| local_leaf) => `(tactic| with_reducible exact Local.swapCounts _ _)
theorem Local.allocOnSwap (prop : Bool) (s t : Ptr) : Local (allocOnSwap prop s t : M (W K) Unit) := by unfold RB.allocOnSwap; locally
macro_rules | `(tactic| local_leaf) => `(tactic| with_reducible exact Local.allocOnSwap _ _ _)
theorem Local.swapTrees (prop : Bool) (s t : Ptr) : Local (swapTrees prop s t : M (W K) Unit) := by unfold RB.swapTrees; locally
macro_rules | `(tactic| local_leaf) => `(tactic| with_reducible exact Local.swapTrees _ _ _)
theorem Local.allocOnMove (prop : Bool) (hdr src : Ptr) : Local (allocOnMove prop hdr src : M (W K) Unit) := by unfold RB.allocOnMove; locally
macro_rules | `(tactic| local_leaf) => `(tactic| with_reducible exact Local.allocOnMove _ _ _)
theorem Local.moveAssign (prop : Bool) (hdr src : Ptr) : Local (moveAssign prop hdr src : M (W K) Bool) := by unfold RB.moveAssign; locally
macro_rules | `(tactic| local_leaf) => `(tactic| with_reducible exact Local.moveAssign _ _ _)
theorem Local.eraseKeys (lt : K → K → Bool) (hdr : Ptr) (ks : List K) : Local (eraseKeys lt hdr ks : M (W K) Unit) := by
  induction ks with
  | nil => exact .pure _
  | cons k ks ih => unfold RB.eraseKeys; locally
macro_rules | `(tactic| local_leaf) => `(tactic| with_reducible exact Local.eraseKeys _ _ _)
theorem Local.walkFrom (it last : Ptr) : Local (Set.walkFrom it last : M (W K) (List (Ptr × K))) := by
  revert it
  refine Set.walkFrom.fixpoint_induct last _ Local.admissible1 ?_
  intro f hf it
  repeat' first
    | with_reducible exact hf _
    | local_leaf
    | with_reducible apply Nestl.Local.bind
    | with_reducible apply Nestl.Local.ite
    | intro _
macro_rules | `(tactic| local_leaf) => `(tactic| with_reducible exact Local.walkFrom _ _)

theorem Local.createNode (hdr : Ptr) (v : K) : Local (createNode hdr v) := by
  unfold RB.createNode constructVal; locally
macro_rules | `(tactic| local_leaf) => `(tactic| with_reducible exact Local.createNode _ _)
theorem Local.insert_ (lt : K → K → Bool) (hdr x p : Ptr) (v : K) : Local (insert_ lt hdr x p v) := by
  unfold RB.insert_; locally
macro_rules | `(tactic| local_leaf) => `(tactic| with_reducible exact Local.insert_ _ _ _ _ _)
theorem Local.insertUnique (lt : K → K → Bool) (hdr : Ptr) (v : K) : Local (insertUnique lt hdr v) := by
  unfold RB.insertUnique; locally
macro_rules | `(tactic| local_leaf) => `(tactic| with_reducible exact Local.insertUnique _ _ _)
theorem Local.insertUniqueAt (lt : K → K → Bool) (hdr pos : Ptr) (v : K) : Local (insertUniqueAt lt hdr pos v) := by
  unfold RB.insertUniqueAt; locally
macro_rules | `(tactic| local_leaf) => `(tactic| with_reducible exact Local.insertUniqueAt _ _ _ _)
theorem Local.insertUniqueRange (lt : K → K → Bool) (hdr : Ptr) (vs : List K) : Local (insertUniqueRange lt hdr vs) := by
  induction vs with
  | nil => exact .pure _
  | cons v vs ih => unfold RB.insertUniqueRange; locally
theorem Local.emplaceUnique (lt : K → K → Bool) (hdr : Ptr) (v : K) : Local (emplaceUnique lt hdr v) := by
  unfold RB.emplaceUnique; locally
macro_rules | `(tactic| local_leaf) => `(tactic| with_reducible exact Local.emplaceUnique _ _ _)
theorem Local.emplaceHintUnique (lt : K → K → Bool) (hdr pos : Ptr) (v : K) : Local (emplaceHintUnique lt hdr pos v) := by
  unfold RB.emplaceHintUnique; locally
macro_rules | `(tactic| local_leaf) => `(tactic| with_reducible exact Local.emplaceHintUnique _ _ _ _)
theorem Local.insertLower (lt : K → K → Bool) (hdr p : Ptr) (v : K) : Local (insertLower lt hdr p v) := by
  unfold RB.insertLower; locally
macro_rules | `(tactic| local_leaf) => `(tactic| with_reducible exact Local.insertLower _ _ _ _)
theorem Local.insertEqualLower (lt : K → K → Bool) (hdr : Ptr) (v : K) : Local (insertEqualLower lt hdr v) := by
  unfold RB.insertEqualLower; locally
macro_rules | `(tactic| local_leaf) => `(tactic| with_reducible exact Local.insertEqualLower _ _ _)
theorem Local.emplaceEqual (lt : K → K → Bool) (hdr : Ptr) (v : K) : Local (emplaceEqual lt hdr v) := by
  unfold RB.emplaceEqual; locally
macro_rules | `(tactic| local_leaf) => `(tactic| with_reducible exact Local.emplaceEqual _ _ _)
theorem Local.emplaceHintEqual (lt : K → K → Bool) (hdr pos : Ptr) (v : K) : Local (emplaceHintEqual lt hdr pos v) := by
  unfold RB.emplaceHintEqual; locally
macro_rules | `(tactic| local_leaf) => `(tactic| with_reducible exact Local.emplaceHintEqual _ _ _ _)
theorem Local.cloneNode (hdr x : Ptr) : Local (cloneNode hdr x : M (W K) Ptr) := by
  unfold RB.cloneNode; locally
macro_rules | `(tactic| local_leaf) => `(tactic| with_reducible exact Local.cloneNode _ _)

theorem Local.mCopy (hdr x p : Ptr) : Local (mCopy hdr x p : M (W K) Ptr) := by
  revert x p
  refine RB.mCopy.fixpoint_induct (K := K) hdr (fun m => ∀ x p, Local (m x p)) (fun m => ∀ a b c, Local (m a b c))
    Local.admissible2 Local.admissible3 ?_ ?_
  · intro f g hf hg x p
    repeat' first
      | with_reducible exact hf _ _
      | with_reducible exact hg _ _ _
      | local_leaf
      | with_reducible apply Nestl.Local.bind
      | with_reducible apply Nestl.Local.ite
      | intro _
  · intro f g hf hg top p x
    repeat' first
      | with_reducible exact hf _ _
      | with_reducible exact hg _ _ _
      | local_leaf
      | with_reducible apply Nestl.Local.bind
      | with_reducible apply Nestl.Local.ite
      | intro _
macro_rules | `(tactic| local_leaf) => `(tactic| with_reducible exact Local.mCopy _ _ _)

theorem Local.copyNothrow (prop : Bool) (hdr src : Ptr) : Local (copyNothrow prop hdr src : M (W K) Unit) := by
  unfold RB.copyNothrow; locally
macro_rules | `(tactic| local_leaf) => `(tactic| with_reducible exact Local.copyNothrow _ _ _)

theorem Local.exec (lt : K → K → Bool) (c : Set.Call K) : Local (Set.exec lt c) := by
  unfold Set.exec; cases c <;> locally
macro_rules | `(tactic| local_leaf) => `(tactic| with_reducible exact Local.exec _ _)

theorem Local.index (c : Multi.MCall K) : Local (Multi.index c) := by
  unfold Multi.index; locally
macro_rules | `(tactic| local_leaf) => `(tactic| with_reducible exact Local.index _)

theorem Local.mexec (lt : K → K → Bool) (c : Multi.MCall K) : Local (Multi.mexec lt c) := by
  unfold Multi.mexec Multi.mrun; locally
macro_rules | `(tactic| local_leaf) => `(tactic| with_reducible exact Local.mexec _ _)

theorem Local.fexec (lt : K → K → Bool) (c : Full.FCall K) : Local (Full.fexec lt c) := by
  unfold Full.fexec; locally

end Nestl.RB
