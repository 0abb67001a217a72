import Verif.RBTree.ModelExtra
import Verif.RBTree.ModelSwap
import Verif.Set.Client
import Verif.ReadOnly
set_option autoImplicit false
/-
Operations of the tree that only read.
-/
namespace Nestl.ReadOnly.RB
open Lean.Order
open Nestl.RB (W)
variable {K : Type}

theorem keyOf (p : Ptr) : ReadOnly (Nestl.RB.keyOf p : M (W K) K) := by unfold Nestl.RB.keyOf; reading
macro_rules | `(tactic| reader_leaf) => `(tactic| with_reducible exact Nestl.ReadOnly.RB.keyOf _)
theorem minLoop (x : Ptr) : ReadOnly (Nestl.RB.minLoop x : M (W K) Ptr) := by
  revert x
  refine Nestl.RB.minLoop.fixpoint_induct  _ ReadOnly.admissible1 ?_
  intro f hf x
  repeat' first
    | with_reducible exact hf _
    | reader_leaf
    | with_reducible apply Nestl.ReadOnly.bind
    | with_reducible apply Nestl.ReadOnly.ite
    | with_reducible (split <;> skip)
    | intro _
macro_rules | `(tactic| reader_leaf) => `(tactic| with_reducible exact Nestl.ReadOnly.RB.minLoop _)
theorem maxLoop (x : Ptr) : ReadOnly (Nestl.RB.maxLoop x : M (W K) Ptr) := by
  revert x
  refine Nestl.RB.maxLoop.fixpoint_induct  _ ReadOnly.admissible1 ?_
  intro f hf x
  repeat' first
    | with_reducible exact hf _
    | reader_leaf
    | with_reducible apply Nestl.ReadOnly.bind
    | with_reducible apply Nestl.ReadOnly.ite
    | with_reducible (split <;> skip)
    | intro _
macro_rules | `(tactic| reader_leaf) => `(tactic| with_reducible exact Nestl.ReadOnly.RB.maxLoop _)
theorem sMinimum (x : Ptr) : ReadOnly (Nestl.RB.sMinimum x : M (W K) Ptr) := by unfold Nestl.RB.sMinimum; reading
macro_rules | `(tactic| reader_leaf) => `(tactic| with_reducible exact Nestl.ReadOnly.RB.sMinimum _)
theorem sMaximum (x : Ptr) : ReadOnly (Nestl.RB.sMaximum x : M (W K) Ptr) := by unfold Nestl.RB.sMaximum; reading
macro_rules | `(tactic| reader_leaf) => `(tactic| with_reducible exact Nestl.ReadOnly.RB.sMaximum _)
theorem incClimb (x y : Ptr) : ReadOnly (Nestl.RB.incClimb x y : M (W K) (Ptr × Ptr)) := by
  revert x y
  refine Nestl.RB.incClimb.fixpoint_induct  _ ReadOnly.admissible2 ?_
  intro f hf x y
  repeat' first
    | with_reducible exact hf _ _
    | reader_leaf
    | with_reducible apply Nestl.ReadOnly.bind
    | with_reducible apply Nestl.ReadOnly.ite
    | with_reducible (split <;> skip)
    | intro _
macro_rules | `(tactic| reader_leaf) => `(tactic| with_reducible exact Nestl.ReadOnly.RB.incClimb _ _)
theorem increment (x : Ptr) : ReadOnly (Nestl.RB.increment x : M (W K) Ptr) := by unfold Nestl.RB.increment; reading
macro_rules | `(tactic| reader_leaf) => `(tactic| with_reducible exact Nestl.ReadOnly.RB.increment _)
theorem decClimb (x y : Ptr) : ReadOnly (Nestl.RB.decClimb x y : M (W K) Ptr) := by
  revert x y
  refine Nestl.RB.decClimb.fixpoint_induct  _ ReadOnly.admissible2 ?_
  intro f hf x y
  repeat' first
    | with_reducible exact hf _ _
    | reader_leaf
    | with_reducible apply Nestl.ReadOnly.bind
    | with_reducible apply Nestl.ReadOnly.ite
    | with_reducible (split <;> skip)
    | intro _
macro_rules | `(tactic| reader_leaf) => `(tactic| with_reducible exact Nestl.ReadOnly.RB.decClimb _ _)
theorem decrement (x : Ptr) : ReadOnly (Nestl.RB.decrement x : M (W K) Ptr) := by unfold Nestl.RB.decrement; reading
macro_rules | `(tactic| reader_leaf) => `(tactic| with_reducible exact Nestl.ReadOnly.RB.decrement _)
theorem begin_ (s : Ptr) : ReadOnly (Nestl.RB.begin_ s : M (W K) Ptr) := by unfold Nestl.RB.begin_; reading
macro_rules | `(tactic| reader_leaf) => `(tactic| with_reducible exact Nestl.ReadOnly.RB.begin_ _)
theorem end_ (s : Ptr) : ReadOnly (Nestl.RB.end_ s : M (W K) Ptr) := by unfold Nestl.RB.end_; reading
macro_rules | `(tactic| reader_leaf) => `(tactic| with_reducible exact Nestl.ReadOnly.RB.end_ _)
theorem size (s : Ptr) : ReadOnly (Nestl.RB.size s : M (W K) Nat) := by unfold Nestl.RB.size; reading
macro_rules | `(tactic| reader_leaf) => `(tactic| with_reducible exact Nestl.ReadOnly.RB.size _)
theorem empty (s : Ptr) : ReadOnly (Nestl.RB.empty s : M (W K) Bool) := by unfold Nestl.RB.empty; reading
macro_rules | `(tactic| reader_leaf) => `(tactic| with_reducible exact Nestl.ReadOnly.RB.empty _)
theorem lowerBound (lt : K → K → Bool) (k : K) (x y : Ptr) : ReadOnly (Nestl.RB.lowerBound lt k x y : M (W K) Ptr) := by
  revert x y
  refine Nestl.RB.lowerBound.fixpoint_induct lt k _ ReadOnly.admissible2 ?_
  intro f hf x y
  repeat' first
    | with_reducible exact hf _ _
    | reader_leaf
    | with_reducible apply Nestl.ReadOnly.bind
    | with_reducible apply Nestl.ReadOnly.ite
    | with_reducible (split <;> skip)
    | intro _
macro_rules | `(tactic| reader_leaf) => `(tactic| with_reducible exact Nestl.ReadOnly.RB.lowerBound _ _ _ _)
theorem upperBound (lt : K → K → Bool) (k : K) (x y : Ptr) : ReadOnly (Nestl.RB.upperBound lt k x y : M (W K) Ptr) := by
  revert x y
  refine Nestl.RB.upperBound.fixpoint_induct lt k _ ReadOnly.admissible2 ?_
  intro f hf x y
  repeat' first
    | with_reducible exact hf _ _
    | reader_leaf
    | with_reducible apply Nestl.ReadOnly.bind
    | with_reducible apply Nestl.ReadOnly.ite
    | with_reducible (split <;> skip)
    | intro _
macro_rules | `(tactic| reader_leaf) => `(tactic| with_reducible exact Nestl.ReadOnly.RB.upperBound _ _ _ _)
theorem equalRangeLoop (lt : K → K → Bool) (k : K) (x y : Ptr) : ReadOnly (Nestl.RB.equalRangeLoop lt k x y : M (W K) (Ptr × Ptr)) := by
  revert x y
  refine Nestl.RB.equalRangeLoop.fixpoint_induct lt k _ ReadOnly.admissible2 ?_
  intro f hf x y
  repeat' first
    | with_reducible exact hf _ _
    | reader_leaf
    | with_reducible apply Nestl.ReadOnly.bind
    | with_reducible apply Nestl.ReadOnly.ite
    | with_reducible (split <;> skip)
    | intro _
macro_rules | `(tactic| reader_leaf) => `(tactic| with_reducible exact Nestl.ReadOnly.RB.equalRangeLoop _ _ _ _)
theorem equalRange (lt : K → K → Bool) (s : Ptr) (k : K) : ReadOnly (Nestl.RB.equalRange lt s k : M (W K) (Ptr × Ptr)) := by unfold Nestl.RB.equalRange; reading
macro_rules | `(tactic| reader_leaf) => `(tactic| with_reducible exact Nestl.ReadOnly.RB.equalRange _ _ _)
theorem find (lt : K → K → Bool) (s : Ptr) (k : K) : ReadOnly (Nestl.RB.find lt s k : M (W K) Ptr) := by unfold Nestl.RB.find; reading
macro_rules | `(tactic| reader_leaf) => `(tactic| with_reducible exact Nestl.ReadOnly.RB.find _ _ _)
theorem distance (first last : Ptr) : ReadOnly (Nestl.RB.distance first last : M (W K) Nat) := by
  revert first
  refine Nestl.RB.distance.fixpoint_induct last _ ReadOnly.admissible1 ?_
  intro f hf first
  repeat' first
    | with_reducible exact hf _
    | reader_leaf
    | with_reducible apply Nestl.ReadOnly.bind
    | with_reducible apply Nestl.ReadOnly.ite
    | with_reducible (split <;> skip)
    | intro _
macro_rules | `(tactic| reader_leaf) => `(tactic| with_reducible exact Nestl.ReadOnly.RB.distance _ _)
theorem count (lt : K → K → Bool) (s : Ptr) (k : K) : ReadOnly (Nestl.RB.count lt s k : M (W K) Nat) := by unfold Nestl.RB.count; reading
macro_rules | `(tactic| reader_leaf) => `(tactic| with_reducible exact Nestl.ReadOnly.RB.count _ _ _)
theorem lowerBoundKey (lt : K → K → Bool) (s : Ptr) (k : K) : ReadOnly (Nestl.RB.lowerBoundKey lt s k : M (W K) Ptr) := by unfold Nestl.RB.lowerBoundKey; reading
macro_rules | `(tactic| reader_leaf) => `(tactic| with_reducible exact Nestl.ReadOnly.RB.lowerBoundKey _ _ _)
theorem upperBoundKey (lt : K → K → Bool) (s : Ptr) (k : K) : ReadOnly (Nestl.RB.upperBoundKey lt s k : M (W K) Ptr) := by unfold Nestl.RB.upperBoundKey; reading
macro_rules | `(tactic| reader_leaf) => `(tactic| with_reducible exact Nestl.ReadOnly.RB.upperBoundKey _ _ _)
theorem equalFrom (eq : K → K → Bool) (f1 l1 f2 : Ptr) : ReadOnly (Nestl.RB.equalFrom eq f1 l1 f2 : M (W K) Bool) := by
  revert f1 f2
  refine Nestl.RB.equalFrom.fixpoint_induct eq l1 _ ReadOnly.admissible2 ?_
  intro f hf f1 f2
  repeat' first
    | with_reducible exact hf _ _
    | reader_leaf
    | with_reducible apply Nestl.ReadOnly.bind
    | with_reducible apply Nestl.ReadOnly.ite
    | with_reducible (split <;> skip)
    | intro _
macro_rules | `(tactic| reader_leaf) => `(tactic| with_reducible exact Nestl.ReadOnly.RB.equalFrom _ _ _ _)
theorem treeEq (eq : K → K → Bool) (x y : Ptr) : ReadOnly (Nestl.RB.treeEq eq x y : M (W K) Bool) := by unfold Nestl.RB.treeEq; reading
macro_rules | `(tactic| reader_leaf) => `(tactic| with_reducible exact Nestl.ReadOnly.RB.treeEq _ _ _)
theorem lexFrom (less : K → K → Bool) (f1 l1 f2 l2 : Ptr) : ReadOnly (Nestl.RB.lexFrom less f1 l1 f2 l2 : M (W K) Bool) := by
  revert f1 f2
  refine Nestl.RB.lexFrom.fixpoint_induct less l1 l2 _ ReadOnly.admissible2 ?_
  intro f hf f1 f2
  repeat' first
    | with_reducible exact hf _ _
    | reader_leaf
    | with_reducible apply Nestl.ReadOnly.bind
    | with_reducible apply Nestl.ReadOnly.ite
    | with_reducible (split <;> skip)
    | intro _
macro_rules | `(tactic| reader_leaf) => `(tactic| with_reducible exact Nestl.ReadOnly.RB.lexFrom _ _ _ _ _)
theorem treeLess (less : K → K → Bool) (x y : Ptr) : ReadOnly (Nestl.RB.treeLess less x y : M (W K) Bool) := by unfold Nestl.RB.treeLess; reading
macro_rules | `(tactic| reader_leaf) => `(tactic| with_reducible exact Nestl.ReadOnly.RB.treeLess _ _ _)

end Nestl.ReadOnly.RB

namespace Nestl.ReadOnly.Set
open Lean.Order
open Nestl.RB (W)
variable {K : Type}

theorem walkFrom (it last : Ptr) : ReadOnly (Nestl.Set.walkFrom it last : M (W K) (List (Ptr × K))) := by
  revert it
  refine Nestl.Set.walkFrom.fixpoint_induct last _ ReadOnly.admissible1 ?_
  intro f hf it
  repeat' first
    | with_reducible exact hf _
    | reader_leaf
    | with_reducible apply Nestl.ReadOnly.bind
    | with_reducible apply Nestl.ReadOnly.ite
    | with_reducible (split <;> skip)
    | intro _
macro_rules | `(tactic| reader_leaf) => `(tactic| with_reducible exact Nestl.ReadOnly.Set.walkFrom _ _)
theorem walk (s : Ptr) : ReadOnly (Nestl.Set.walk s : M (W K) (List (Ptr × K))) := by unfold Nestl.Set.walk; reading
macro_rules | `(tactic| reader_leaf) => `(tactic| with_reducible exact Nestl.ReadOnly.Set.walk _)
theorem walkBackFrom (it first : Ptr) : ReadOnly (Nestl.Set.walkBackFrom it first : M (W K) (List (Ptr × K))) := by
  revert it
  refine Nestl.Set.walkBackFrom.fixpoint_induct first _ ReadOnly.admissible1 ?_
  intro f hf it
  repeat' first
    | with_reducible exact hf _
    | reader_leaf
    | with_reducible apply Nestl.ReadOnly.bind
    | with_reducible apply Nestl.ReadOnly.ite
    | with_reducible (split <;> skip)
    | intro _
macro_rules | `(tactic| reader_leaf) => `(tactic| with_reducible exact Nestl.ReadOnly.Set.walkBackFrom _ _)
theorem walkBack (s : Ptr) : ReadOnly (Nestl.Set.walkBack s : M (W K) (List (Ptr × K))) := by unfold Nestl.Set.walkBack; reading
macro_rules | `(tactic| reader_leaf) => `(tactic| with_reducible exact Nestl.ReadOnly.Set.walkBack _)

end Nestl.ReadOnly.Set
