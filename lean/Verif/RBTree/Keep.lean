import Verif.RBTree.Quiet
import Verif.Grows
set_option autoImplicit false
/-
Operations of the tree that request nothing and give nothing back.
-/
namespace Nestl.RB
open Lean.Order
variable {K : Type}

theorem Keep.setColor (p : Ptr) (c : Color) : Keep (setColor p c : M (W K) Unit) := by unfold RB.setColor; keeps
macro_rules | `(tactic| keep_leaf) => `(tactic| with_reducible exact Keep.setColor _ _)
theorem Keep.setParent (p q : Ptr) : Keep (setParent p q : M (W K) Unit) := by unfold RB.setParent; keeps
macro_rules | `(tactic| keep_leaf) => `(tactic| with_reducible exact Keep.setParent _ _)
theorem Keep.setLeft (p q : Ptr) : Keep (setLeft p q : M (W K) Unit) := by unfold RB.setLeft; keeps
macro_rules | `(tactic| keep_leaf) => `(tactic| with_reducible exact Keep.setLeft _ _)
theorem Keep.setRight (p q : Ptr) : Keep (setRight p q : M (W K) Unit) := by unfold RB.setRight; keeps
macro_rules | `(tactic| keep_leaf) => `(tactic| with_reducible exact Keep.setRight _ _)
theorem Keep.setCount (p : Ptr) (f : Nat → Nat) : Keep (setCount p f : M (W K) Unit) := by unfold RB.setCount; keeps
macro_rules | `(tactic| keep_leaf) => `(tactic| with_reducible exact Keep.setCount _ _)
theorem Keep.keyOf (p : Ptr) : Keep (keyOf p : M (W K) K) := by unfold RB.keyOf; keeps
macro_rules | `(tactic| keep_leaf) => `(tactic| with_reducible exact Keep.keyOf _)
theorem Keep.minLoop (x : Ptr) : Keep (minLoop x : M (W K) Ptr) := by
  revert x
  refine RB.minLoop.fixpoint_induct  _ Keep.admissible1 ?_
  intro f hf x
  repeat' first
    | with_reducible exact hf _
    | keep_leaf
    | with_reducible apply Nestl.Keep.bind
    | with_reducible apply Nestl.Keep.ite
    | with_reducible (split <;> skip)
    | intro _
macro_rules | `(tactic| keep_leaf) => `(tactic| with_reducible exact Keep.minLoop _)
theorem Keep.maxLoop (x : Ptr) : Keep (maxLoop x : M (W K) Ptr) := by
  revert x
  refine RB.maxLoop.fixpoint_induct  _ Keep.admissible1 ?_
  intro f hf x
  repeat' first
    | with_reducible exact hf _
    | keep_leaf
    | with_reducible apply Nestl.Keep.bind
    | with_reducible apply Nestl.Keep.ite
    | with_reducible (split <;> skip)
    | intro _
macro_rules | `(tactic| keep_leaf) => `(tactic| with_reducible exact Keep.maxLoop _)
theorem Keep.sMinimum (x : Ptr) : Keep (sMinimum x : M (W K) Ptr) := by unfold RB.sMinimum; keeps
macro_rules | `(tactic| keep_leaf) => `(tactic| with_reducible exact Keep.sMinimum _)
theorem Keep.sMaximum (x : Ptr) : Keep (sMaximum x : M (W K) Ptr) := by unfold RB.sMaximum; keeps
macro_rules | `(tactic| keep_leaf) => `(tactic| with_reducible exact Keep.sMaximum _)
theorem Keep.incClimb (x y : Ptr) : Keep (incClimb x y : M (W K) (Ptr × Ptr)) := by
  revert x y
  refine RB.incClimb.fixpoint_induct  _ Keep.admissible2 ?_
  intro f hf x y
  repeat' first
    | with_reducible exact hf _ _
    | keep_leaf
    | with_reducible apply Nestl.Keep.bind
    | with_reducible apply Nestl.Keep.ite
    | with_reducible (split <;> skip)
    | intro _
macro_rules | `(tactic| keep_leaf) => `(tactic| with_reducible exact Keep.incClimb _ _)
theorem Keep.increment (x : Ptr) : Keep (increment x : M (W K) Ptr) := by unfold RB.increment; keeps
macro_rules | `(tactic| keep_leaf) => `(tactic| with_reducible exact Keep.increment _)
theorem Keep.decClimb (x y : Ptr) : Keep (decClimb x y : M (W K) Ptr) := by
  revert x y
  refine RB.decClimb.fixpoint_induct  _ Keep.admissible2 ?_
  intro f hf x y
  repeat' first
    | with_reducible exact hf _ _
    | keep_leaf
    | with_reducible apply Nestl.Keep.bind
    | with_reducible apply Nestl.Keep.ite
    | with_reducible (split <;> skip)
    | intro _
macro_rules | `(tactic| keep_leaf) => `(tactic| with_reducible exact Keep.decClimb _ _)
theorem Keep.decrement (x : Ptr) : Keep (decrement x : M (W K) Ptr) := by unfold RB.decrement; keeps
macro_rules | `(tactic| keep_leaf) => `(tactic| with_reducible exact Keep.decrement _)
theorem Keep.reparent (b x : Ptr) : Keep (reparent b x : M (W K) Unit) := by unfold RB.reparent; keeps
macro_rules | `(tactic| keep_leaf) => `(tactic| with_reducible exact Keep.reparent _ _)
theorem Keep.relinkL (hdr x y : Ptr) : Keep (relinkL hdr x y : M (W K) Unit) := by unfold RB.relinkL; keeps
macro_rules | `(tactic| keep_leaf) => `(tactic| with_reducible exact Keep.relinkL _ _ _)
theorem Keep.relinkR (hdr x y : Ptr) : Keep (relinkR hdr x y : M (W K) Unit) := by unfold RB.relinkR; keeps
macro_rules | `(tactic| keep_leaf) => `(tactic| with_reducible exact Keep.relinkR _ _ _)
theorem Keep.rotateLeft (hdr x : Ptr) : Keep (rotateLeft hdr x : M (W K) Unit) := by unfold RB.rotateLeft; keeps
macro_rules | `(tactic| keep_leaf) => `(tactic| with_reducible exact Keep.rotateLeft _ _)
theorem Keep.rotateRight (hdr x : Ptr) : Keep (rotateRight hdr x : M (W K) Unit) := by unfold RB.rotateRight; keeps
macro_rules | `(tactic| keep_leaf) => `(tactic| with_reducible exact Keep.rotateRight _ _)
theorem Keep.isRed (x : Ptr) : Keep (isRed x : M (W K) Bool) := by unfold RB.isRed; keeps
macro_rules | `(tactic| keep_leaf) => `(tactic| with_reducible exact Keep.isRed _)
theorem Keep.insFix (hdr : Ptr) (x : Ptr) : Keep (insFix hdr x : M (W K) Unit) := by
  revert x
  refine RB.insFix.fixpoint_induct hdr _ Keep.admissible1 ?_
  intro f hf x
  repeat' first
    | with_reducible exact hf _
    | keep_leaf
    | with_reducible apply Nestl.Keep.bind
    | with_reducible apply Nestl.Keep.ite
    | with_reducible (split <;> skip)
    | intro _
macro_rules | `(tactic| keep_leaf) => `(tactic| with_reducible exact Keep.insFix _ _)
theorem Keep.insLink (b : Bool) (x p hdr : Ptr) : Keep (insLink b x p hdr : M (W K) Unit) := by unfold RB.insLink; keeps
macro_rules | `(tactic| keep_leaf) => `(tactic| with_reducible exact Keep.insLink _ _ _ _)
theorem Keep.insertAndRebalance (b : Bool) (x p hdr : Ptr) : Keep (insertAndRebalance b x p hdr : M (W K) Unit) := by unfold RB.insertAndRebalance; keeps
macro_rules | `(tactic| keep_leaf) => `(tactic| with_reducible exact Keep.insertAndRebalance _ _ _ _)
theorem Keep.begin_ (hdr : Ptr) : Keep (begin_ hdr : M (W K) Ptr) := by unfold RB.begin_; keeps
macro_rules | `(tactic| keep_leaf) => `(tactic| with_reducible exact Keep.begin_ _)
theorem Keep.end_ (hdr : Ptr) : Keep (end_ hdr : M (W K) Ptr) := by unfold RB.end_; keeps
macro_rules | `(tactic| keep_leaf) => `(tactic| with_reducible exact Keep.end_ _)
theorem Keep.size (hdr : Ptr) : Keep (size hdr : M (W K) Nat) := by unfold RB.size; keeps
macro_rules | `(tactic| keep_leaf) => `(tactic| with_reducible exact Keep.size _)
theorem Keep.empty (hdr : Ptr) : Keep (empty hdr : M (W K) Bool) := by unfold RB.empty; keeps
macro_rules | `(tactic| keep_leaf) => `(tactic| with_reducible exact Keep.empty _)
theorem Keep.insDescend (lt : K → K → Bool) (k : K) (x y : Ptr) (comp : Bool) : Keep (insDescend lt k x y comp : M (W K) (Ptr × Bool)) := by
  revert x y comp
  refine RB.insDescend.fixpoint_induct lt k _ Keep.admissible3 ?_
  intro f hf x y comp
  repeat' first
    | with_reducible exact hf _ _ _
    | keep_leaf
    | with_reducible apply Nestl.Keep.bind
    | with_reducible apply Nestl.Keep.ite
    | with_reducible (split <;> skip)
    | intro _
macro_rules | `(tactic| keep_leaf) => `(tactic| with_reducible exact Keep.insDescend _ _ _ _ _)
theorem Keep.getInsertUniquePos (lt : K → K → Bool) (hdr : Ptr) (k : K) : Keep (getInsertUniquePos lt hdr k : M (W K) (Ptr × Ptr)) := by unfold RB.getInsertUniquePos; keeps
macro_rules | `(tactic| keep_leaf) => `(tactic| with_reducible exact Keep.getInsertUniquePos _ _ _)
theorem Keep.upperBound (lt : K → K → Bool) (k : K) (x y : Ptr) : Keep (upperBound lt k x y : M (W K) Ptr) := by
  revert x y
  refine RB.upperBound.fixpoint_induct lt k _ Keep.admissible2 ?_
  intro f hf x y
  repeat' first
    | with_reducible exact hf _ _
    | keep_leaf
    | with_reducible apply Nestl.Keep.bind
    | with_reducible apply Nestl.Keep.ite
    | with_reducible (split <;> skip)
    | intro _
macro_rules | `(tactic| keep_leaf) => `(tactic| with_reducible exact Keep.upperBound _ _ _ _)
theorem Keep.getInsertEqualPos (lt : K → K → Bool) (hdr : Ptr) (k : K) : Keep (getInsertEqualPos lt hdr k : M (W K) (Ptr × Ptr)) := by unfold RB.getInsertEqualPos; keeps
macro_rules | `(tactic| keep_leaf) => `(tactic| with_reducible exact Keep.getInsertEqualPos _ _ _)
theorem Keep.getInsertHintEqualPos (lt : K → K → Bool) (hdr pos : Ptr) (k : K) : Keep (getInsertHintEqualPos lt hdr pos k : M (W K) (Ptr × Ptr)) := by unfold RB.getInsertHintEqualPos; keeps
macro_rules | `(tactic| keep_leaf) => `(tactic| with_reducible exact Keep.getInsertHintEqualPos _ _ _ _)
theorem Keep.lowerDescend (lt : K → K → Bool) (k : K) (x y : Ptr) : Keep (lowerDescend lt k x y : M (W K) Ptr) := by
  revert x y
  refine RB.lowerDescend.fixpoint_induct lt k _ Keep.admissible2 ?_
  intro f hf x y
  repeat' first
    | with_reducible exact hf _ _
    | keep_leaf
    | with_reducible apply Nestl.Keep.bind
    | with_reducible apply Nestl.Keep.ite
    | with_reducible (split <;> skip)
    | intro _
macro_rules | `(tactic| keep_leaf) => `(tactic| with_reducible exact Keep.lowerDescend _ _ _ _)
theorem Keep.insertLowerNode (lt : K → K → Bool) (hdr p z : Ptr) : Keep (insertLowerNode lt hdr p z : M (W K) Ptr) := by unfold RB.insertLowerNode; keeps
macro_rules | `(tactic| keep_leaf) => `(tactic| with_reducible exact Keep.insertLowerNode _ _ _ _)
theorem Keep.insertEqualLowerNode (lt : K → K → Bool) (hdr z : Ptr) : Keep (insertEqualLowerNode lt hdr z : M (W K) Ptr) := by unfold RB.insertEqualLowerNode; keeps
macro_rules | `(tactic| keep_leaf) => `(tactic| with_reducible exact Keep.insertEqualLowerNode _ _ _)
theorem Keep.allocOnCopy (prop : Bool) (hdr src : Ptr) : Keep (allocOnCopy prop hdr src : M (W K) Unit) := by unfold RB.allocOnCopy; keeps
macro_rules | `(tactic| keep_leaf) => `(tactic| with_reducible exact Keep.allocOnCopy _ _ _)
theorem Keep.getInsertHintUniquePos (lt : K → K → Bool) (hdr pos : Ptr) (k : K) : Keep (getInsertHintUniquePos lt hdr pos k : M (W K) (Ptr × Ptr)) := by unfold RB.getInsertHintUniquePos; keeps
macro_rules | `(tactic| keep_leaf) => `(tactic| with_reducible exact Keep.getInsertHintUniquePos _ _ _ _)
theorem Keep.insertNode (lt : K → K → Bool) (hdr x p z : Ptr) : Keep (insertNode lt hdr x p z : M (W K) Ptr) := by unfold RB.insertNode; keeps
macro_rules | `(tactic| keep_leaf) => `(tactic| with_reducible exact Keep.insertNode _ _ _ _ _)
theorem Keep.walkFrom (it last : Ptr) : Keep (Set.walkFrom it last : M (W K) (List (Ptr × K))) := by
  revert it
  refine Set.walkFrom.fixpoint_induct last _ Keep.admissible1 ?_
  intro f hf it
  repeat' first
    | with_reducible exact hf _
    | keep_leaf
    | with_reducible apply Nestl.Keep.bind
    | with_reducible apply Nestl.Keep.ite
    | intro _
macro_rules | `(tactic| keep_leaf) => `(tactic| with_reducible exact Keep.walkFrom _ _)


end Nestl.RB
