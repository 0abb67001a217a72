import Verif.NodeOf.Does
import Verif.TreeOf.Client
set_option autoImplicit false
set_option maxHeartbeats 1000000
/-
What the functions of trees of objects can do to the elements: functions that only follow and change links, functions that also
destroy elements, and functions that also construct elements.
-/
namespace Nestl.TO
open Nestl.VO (ElemOps)
open Nestl.NO
open Nestl.RB (TNode)
variable {S : Type}

/-! ### Links -/

section
variable (p q r t : Ptr)
theorem l_setColor (c : RB.Color) : Link (RB.setColor p c : M (RB.W Ptr) Unit) := .modCell fun _ => rfl
theorem l_setParent : Link (RB.setParent p q : M (RB.W Ptr) Unit) := .modCell fun _ => rfl
theorem l_setLeft : Link (RB.setLeft p q : M (RB.W Ptr) Unit) := .modCell fun _ => rfl
theorem l_setRight : Link (RB.setRight p q : M (RB.W Ptr) Unit) := .modCell fun _ => rfl
theorem l_setCount (g : Nat → Nat) : Link (RB.setCount p g : M (RB.W Ptr) Unit) := .modCell fun _ => rfl
theorem l_newTree (a : Nat) : Link (RB.newTree a : M (RB.W Ptr) Ptr) := .newObj fun _ => rfl
macro_rules | `(tactic| link1) => `(tactic| with_reducible exact l_setColor _ _)
macro_rules | `(tactic| link1) => `(tactic| with_reducible exact l_setParent _ _)
macro_rules | `(tactic| link1) => `(tactic| with_reducible exact l_setLeft _ _)
macro_rules | `(tactic| link1) => `(tactic| with_reducible exact l_setRight _ _)
macro_rules | `(tactic| link1) => `(tactic| with_reducible exact l_setCount _ _)
macro_rules | `(tactic| link1) => `(tactic| with_reducible exact l_newTree _)
theorem l_minLoop : Link (RB.minLoop p : M (RB.W Ptr) Ptr) := by
  revert p
  refine RB.minLoop.fixpoint_induct (K := Ptr) (motive := fun n => ∀ p, Link (n p)) Link.admissible1 ?_
  intro g ih p
  repeat' (first | with_reducible exact ih _ | link1)
theorem l_maxLoop : Link (RB.maxLoop p : M (RB.W Ptr) Ptr) := by
  revert p
  refine RB.maxLoop.fixpoint_induct (K := Ptr) (motive := fun n => ∀ p, Link (n p)) Link.admissible1 ?_
  intro g ih p
  repeat' (first | with_reducible exact ih _ | link1)
theorem l_incClimb : Link (RB.incClimb p q : M (RB.W Ptr) (Ptr × Ptr)) := by
  revert p q
  refine RB.incClimb.fixpoint_induct (K := Ptr) (motive := fun n => ∀ p q, Link (n p q)) (Lean.Order.admissible_pi_apply _ fun _ => Link.admissible1) ?_
  intro g ih p q
  repeat' (first | with_reducible exact ih _ _ | link1)
theorem l_decClimb : Link (RB.decClimb p q : M (RB.W Ptr) Ptr) := by
  revert p q
  refine RB.decClimb.fixpoint_induct (K := Ptr) (motive := fun n => ∀ p q, Link (n p q)) (Lean.Order.admissible_pi_apply _ fun _ => Link.admissible1) ?_
  intro g ih p q
  repeat' (first | with_reducible exact ih _ _ | link1)
macro_rules | `(tactic| link1) => `(tactic| with_reducible exact l_minLoop _)
macro_rules | `(tactic| link1) => `(tactic| with_reducible exact l_maxLoop _)
macro_rules | `(tactic| link1) => `(tactic| with_reducible exact l_incClimb _ _)
macro_rules | `(tactic| link1) => `(tactic| with_reducible exact l_decClimb _ _)
theorem l_sMinimum : Link (RB.sMinimum p : M (RB.W Ptr) Ptr) := by unfold RB.sMinimum; links
macro_rules | `(tactic| link1) => `(tactic| with_reducible exact l_sMinimum _)
theorem l_sMaximum : Link (RB.sMaximum p : M (RB.W Ptr) Ptr) := by unfold RB.sMaximum; links
macro_rules | `(tactic| link1) => `(tactic| with_reducible exact l_sMaximum _)
theorem l_increment : Link (RB.increment p : M (RB.W Ptr) Ptr) := by unfold RB.increment; links
macro_rules | `(tactic| link1) => `(tactic| with_reducible exact l_increment _)
theorem l_decrement : Link (RB.decrement p : M (RB.W Ptr) Ptr) := by unfold RB.decrement; links
macro_rules | `(tactic| link1) => `(tactic| with_reducible exact l_decrement _)
theorem l_reparent : Link (RB.reparent p q : M (RB.W Ptr) Unit) := by unfold RB.reparent; links
macro_rules | `(tactic| link1) => `(tactic| with_reducible exact l_reparent _ _)
theorem l_relinkL : Link (RB.relinkL p q r : M (RB.W Ptr) Unit) := by unfold RB.relinkL; links
macro_rules | `(tactic| link1) => `(tactic| with_reducible exact l_relinkL _ _ _)
theorem l_relinkR : Link (RB.relinkR p q r : M (RB.W Ptr) Unit) := by unfold RB.relinkR; links
macro_rules | `(tactic| link1) => `(tactic| with_reducible exact l_relinkR _ _ _)
theorem l_rotateLeft : Link (RB.rotateLeft p q : M (RB.W Ptr) Unit) := by unfold RB.rotateLeft; links
macro_rules | `(tactic| link1) => `(tactic| with_reducible exact l_rotateLeft _ _)
theorem l_rotateRight : Link (RB.rotateRight p q : M (RB.W Ptr) Unit) := by unfold RB.rotateRight; links
macro_rules | `(tactic| link1) => `(tactic| with_reducible exact l_rotateRight _ _)
theorem l_isRed : Link (RB.isRed p : M (RB.W Ptr) Bool) := by unfold RB.isRed; links
macro_rules | `(tactic| link1) => `(tactic| with_reducible exact l_isRed _)
theorem l_blackOrNull : Link (RB.blackOrNull p : M (RB.W Ptr) Bool) := by unfold RB.blackOrNull; links
macro_rules | `(tactic| link1) => `(tactic| with_reducible exact l_blackOrNull _)
theorem l_insFix : Link (RB.insFix p q : M (RB.W Ptr) Unit) := by
  revert q
  refine RB.insFix.fixpoint_induct (K := Ptr) p (motive := fun n => ∀ q, Link (n q)) Link.admissible1 ?_
  intro g ih q
  repeat' (first | with_reducible exact ih _ | link1)
macro_rules | `(tactic| link1) => `(tactic| with_reducible exact l_insFix _ _)
theorem l_insLink (b : Bool) : Link (RB.insLink b p q r : M (RB.W Ptr) Unit) := by unfold RB.insLink; links
macro_rules | `(tactic| link1) => `(tactic| with_reducible exact l_insLink _ _ _ _)
theorem l_insertAndRebalance (b : Bool) : Link (RB.insertAndRebalance b p q r : M (RB.W Ptr) Unit) := by
  unfold RB.insertAndRebalance; links
macro_rules | `(tactic| link1) => `(tactic| with_reducible exact l_insertAndRebalance _ _ _ _)
theorem l_eraseLeftmost : Link (RB.eraseLeftmost p q r : M (RB.W Ptr) Unit) := by unfold RB.eraseLeftmost; links
macro_rules | `(tactic| link1) => `(tactic| with_reducible exact l_eraseLeftmost _ _ _)
theorem l_eraseRightmost : Link (RB.eraseRightmost p q r : M (RB.W Ptr) Unit) := by unfold RB.eraseRightmost; links
macro_rules | `(tactic| link1) => `(tactic| with_reducible exact l_eraseRightmost _ _ _)
theorem l_eraseUnlink : Link (RB.eraseUnlink p q : M (RB.W Ptr) (Ptr × Ptr)) := by unfold RB.eraseUnlink; links
macro_rules | `(tactic| link1) => `(tactic| with_reducible exact l_eraseUnlink _ _)
theorem l_eraseFix : Link (RB.eraseFix p q r : M (RB.W Ptr) Ptr) := by
  revert q r
  refine RB.eraseFix.fixpoint_induct (K := Ptr) p (motive := fun n => ∀ q r, Link (n q r)) (Lean.Order.admissible_pi_apply _ fun _ => Link.admissible1) ?_
  intro g ih q r
  repeat' (first | with_reducible exact ih _ _ | link1)
macro_rules | `(tactic| link1) => `(tactic| with_reducible exact l_eraseFix _ _ _)
theorem l_rebalanceForErase : Link (RB.rebalanceForErase p q : M (RB.W Ptr) Ptr) := by unfold RB.rebalanceForErase; links
theorem l_putNode : Link (RB.putNode p q : M (RB.W Ptr) Unit) := by
  unfold RB.putNode
  refine .bind (.rd _) fun c => .freeCell fun d h => ?_
  split at h
  · cases h
  · split at h
    · cases h
    · rename_i h2
      show d.val = none
      cases e : d.val with
      | none => rfl
      | some x => rw [e] at h2; exact (h2 rfl).elim
macro_rules | `(tactic| link1) => `(tactic| with_reducible exact l_rebalanceForErase _ _)
macro_rules | `(tactic| link1) => `(tactic| with_reducible exact l_putNode _ _)
theorem l_begin_ : Link (RB.begin_ p : M (RB.W Ptr) Ptr) := by unfold RB.begin_; links
macro_rules | `(tactic| link1) => `(tactic| with_reducible exact l_begin_ _)
theorem l_end_ : Link (RB.end_ p : M (RB.W Ptr) Ptr) := by unfold RB.end_; links
macro_rules | `(tactic| link1) => `(tactic| with_reducible exact l_end_ _)
theorem l_size : Link (RB.size p : M (RB.W Ptr) Nat) := by unfold RB.size; links
macro_rules | `(tactic| link1) => `(tactic| with_reducible exact l_size _)
theorem l_empty : Link (RB.empty p : M (RB.W Ptr) Bool) := by unfold RB.empty; links
macro_rules | `(tactic| link1) => `(tactic| with_reducible exact l_empty _)
theorem l_keyOf : Link (RB.keyOf p : M (RB.W Ptr) Ptr) := by unfold RB.keyOf; links
macro_rules | `(tactic| link1) => `(tactic| with_reducible exact l_keyOf _)
theorem l_distance : Link (RB.distance p q : M (RB.W Ptr) Nat) := by
  revert p
  refine RB.distance.fixpoint_induct (K := Ptr) q (motive := fun n => ∀ p, Link (n p)) Link.admissible1 ?_
  intro g ih f
  repeat' (first | with_reducible exact ih _ | link1)
macro_rules | `(tactic| link1) => `(tactic| with_reducible exact l_distance _ _)
theorem l_allocOnCopy (b : Bool) : Link (RB.allocOnCopy b p q : M (RB.W Ptr) Unit) := by unfold RB.allocOnCopy; links
macro_rules | `(tactic| link1) => `(tactic| with_reducible exact l_allocOnCopy _ _ _)
theorem l_allocOnMove (b : Bool) : Link (RB.allocOnMove b p q : M (RB.W Ptr) Unit) := by unfold RB.allocOnMove; links
macro_rules | `(tactic| link1) => `(tactic| with_reducible exact l_allocOnMove _ _ _)
theorem l_allocOnSwap (b : Bool) : Link (RB.allocOnSwap b p q : M (RB.W Ptr) Unit) := by unfold RB.allocOnSwap; links
macro_rules | `(tactic| link1) => `(tactic| with_reducible exact l_allocOnSwap _ _ _)
theorem l_moveData : Link (RB.moveData p q : M (RB.W Ptr) Unit) := by unfold RB.moveData; links
macro_rules | `(tactic| link1) => `(tactic| with_reducible exact l_moveData _ _)
theorem l_moveLinks : Link (RB.moveLinks p q : M (RB.W Ptr) Unit) := by unfold RB.moveLinks; links
macro_rules | `(tactic| link1) => `(tactic| with_reducible exact l_moveLinks _ _)
theorem l_swapLinks : Link (RB.swapLinks p q : M (RB.W Ptr) Unit) := by unfold RB.swapLinks; links
macro_rules | `(tactic| link1) => `(tactic| with_reducible exact l_swapLinks _ _)
theorem l_swapCounts : Link (RB.swapCounts p q : M (RB.W Ptr) Unit) := by unfold RB.swapCounts; links
macro_rules | `(tactic| link1) => `(tactic| with_reducible exact l_swapCounts _ _)
theorem l_swapTrees (b : Bool) : Link (RB.swapTrees b p q : M (RB.W Ptr) Unit) := by unfold RB.swapTrees; links
theorem l_moveCtor : Link (RB.moveCtor p : M (RB.W Ptr) Ptr) := by unfold RB.moveCtor; links
theorem l_resetLinks : Link (resetLinks p : M (RB.W Ptr) Unit) := by unfold resetLinks; links
theorem l_linkNode (b : Bool) : Link (linkNode b p q r : M (RB.W Ptr) Ptr) := by unfold linkNode; links
theorem l_cloneLinks (c : RB.Color) : Link (cloneLinks p c : M (RB.W Ptr) Ptr) := by unfold cloneLinks; links
theorem l_adopt : Link (adopt p q r : M (RB.W Ptr) Unit) := by unfold adopt; links
end

macro_rules | `(tactic| link1) => `(tactic| with_reducible exact l_swapTrees _ _ _)
macro_rules | `(tactic| link1) => `(tactic| with_reducible exact l_moveCtor _)
macro_rules | `(tactic| link1) => `(tactic| with_reducible exact l_resetLinks _)
macro_rules | `(tactic| link1) => `(tactic| with_reducible exact l_linkNode _ _ _ _)
macro_rules | `(tactic| link1) => `(tactic| with_reducible exact l_cloneLinks _ _)
macro_rules | `(tactic| link1) => `(tactic| with_reducible exact l_adopt _ _ _)
macro_rules | `(tactic| does1) => `(tactic| with_reducible refine Moves.link ‹Moves _› _ (by links))

section
variable {R : ST S → ST S → Prop} (hR : Moves R)
include hR

theorem d_node (p : Ptr) : Does R (node p) := hR.link _ (by links)
theorem d_keyOf (p : Ptr) : Does R (keyOf p) := hR.link _ (by links)
macro_rules | `(tactic| does1) => `(tactic| with_reducible exact d_node ‹Moves _› _)
macro_rules | `(tactic| does1) => `(tactic| with_reducible exact d_keyOf ‹Moves _› _)

/-! ### Lookup -/

section
variable (less : Ptr → Ptr → M S Bool) (k : Ptr)

theorem d_insDescend (x y : Ptr) (b : Bool) : Does R (insDescend less k x y b) := by
  revert x y b
  refine insDescend.fixpoint_induct less k (motive := fun g => ∀ x y b, Does R (g x y b)) Does.admissible3 ?_
  intro g ih x y b
  repeat' (first | with_reducible exact ih _ _ _ | does1)
macro_rules | `(tactic| does1) => `(tactic| with_reducible exact d_insDescend ‹Moves _› _ _ _ _ _)

theorem d_getInsertUniquePos (hdr : Ptr) : Does R (getInsertUniquePos less hdr k) := by
  unfold getInsertUniquePos; doesAll
macro_rules | `(tactic| does1) => `(tactic| with_reducible exact d_getInsertUniquePos ‹Moves _› _ _ _)

theorem d_lowerBound (x y : Ptr) : Does R (lowerBound less k x y) := by
  revert x y
  refine lowerBound.fixpoint_induct less k (motive := fun g => ∀ x y, Does R (g x y)) Does.admissible2 ?_
  intro g ih x y
  repeat' (first | with_reducible exact ih _ _ | does1)
macro_rules | `(tactic| does1) => `(tactic| with_reducible exact d_lowerBound ‹Moves _› _ _ _ _)

theorem d_upperBound (x y : Ptr) : Does R (upperBound less k x y) := by
  revert x y
  refine upperBound.fixpoint_induct less k (motive := fun g => ∀ x y, Does R (g x y)) Does.admissible2 ?_
  intro g ih x y
  repeat' (first | with_reducible exact ih _ _ | does1)
macro_rules | `(tactic| does1) => `(tactic| with_reducible exact d_upperBound ‹Moves _› _ _ _ _)

theorem d_equalRangeLoop (x y : Ptr) : Does R (equalRangeLoop less k x y) := by
  revert x y
  refine equalRangeLoop.fixpoint_induct less k (motive := fun g => ∀ x y, Does R (g x y)) Does.admissible2 ?_
  intro g ih x y
  repeat' (first | with_reducible exact ih _ _ | does1)
macro_rules | `(tactic| does1) => `(tactic| with_reducible exact d_equalRangeLoop ‹Moves _› _ _ _ _)

theorem d_equalRange (hdr : Ptr) : Does R (equalRange less hdr k) := by unfold equalRange; doesAll
macro_rules | `(tactic| does1) => `(tactic| with_reducible exact d_equalRange ‹Moves _› _ _ _)

theorem d_find (hdr : Ptr) : Does R (find less hdr k) := by unfold find; doesAll
theorem d_getInsertHintUniquePos (hdr pos : Ptr) : Does R (getInsertHintUniquePos less hdr pos k) := by
  unfold getInsertHintUniquePos; doesAll
theorem d_getInsertEqualPos (hdr : Ptr) : Does R (getInsertEqualPos less hdr k) := by unfold getInsertEqualPos; doesAll
macro_rules | `(tactic| does1) => `(tactic| with_reducible exact d_getInsertEqualPos ‹Moves _› _ _ _)
theorem d_getInsertHintEqualPos (hdr pos : Ptr) : Does R (getInsertHintEqualPos less hdr pos k) := by
  unfold getInsertHintEqualPos; doesAll

theorem d_lowerDescend (x y : Ptr) : Does R (lowerDescend less k x y) := by
  revert x y
  refine lowerDescend.fixpoint_induct less k (motive := fun g => ∀ x y, Does R (g x y)) Does.admissible2 ?_
  intro g ih x y
  repeat' (first | with_reducible exact ih _ _ | does1)
macro_rules | `(tactic| does1) => `(tactic| with_reducible exact d_find ‹Moves _› _ _ _)
macro_rules | `(tactic| does1) => `(tactic| with_reducible exact d_getInsertHintUniquePos ‹Moves _› _ _ _ _)
macro_rules | `(tactic| does1) => `(tactic| with_reducible exact d_getInsertHintEqualPos ‹Moves _› _ _ _ _)
macro_rules | `(tactic| does1) => `(tactic| with_reducible exact d_lowerDescend ‹Moves _› _ _ _ _)

theorem d_insertNode (hdr x p z : Ptr) : Does R (insertNode less hdr x p z) := by unfold insertNode; doesAll
theorem d_insertLowerNode (hdr p z : Ptr) : Does R (insertLowerNode less hdr p z) := by unfold insertLowerNode; doesAll
macro_rules | `(tactic| does1) => `(tactic| with_reducible exact d_insertNode ‹Moves _› _ _ _ _ _)
macro_rules | `(tactic| does1) => `(tactic| with_reducible exact d_insertLowerNode ‹Moves _› _ _ _ _)
theorem d_insertEqualLowerNode (hdr z : Ptr) : Does R (insertEqualLowerNode less hdr z) := by unfold insertEqualLowerNode; doesAll
macro_rules | `(tactic| does1) => `(tactic| with_reducible exact d_insertEqualLowerNode ‹Moves _› _ _ _)

end

/-! ### Functions that destroy elements -/

section
variable {E : ElemOps S} (hD : ∀ p, Does R (destroyElem E p))
include hD

theorem d_destroyNode (hdr p : Ptr) : Does R (destroyNode E hdr p) := by
  unfold destroyNode
  repeat' (first | with_reducible exact hD _ | does1)

theorem d_eraseAux (hdr z : Ptr) : Does R (eraseAux E hdr z) := by
  unfold eraseAux
  repeat' (first | with_reducible exact d_destroyNode hR hD _ _ | does1)

theorem d_eraseIter (hdr z : Ptr) : Does R (eraseIter E hdr z) := by
  unfold eraseIter
  repeat' (first | with_reducible exact d_eraseAux hR hD _ _ | does1)

theorem d_mErase (hdr x : Ptr) : Does R (mErase E hdr x) := by
  revert x
  refine mErase.fixpoint_induct E hdr (motive := fun g => ∀ x, Does R (g x)) Does.admissible1 ?_
  intro g ih x
  repeat' (first | with_reducible exact ih _ | with_reducible exact d_destroyNode hR hD _ _ | does1)

theorem d_clear (hdr : Ptr) : Does R (clear E hdr) := by
  unfold clear
  repeat' (first | with_reducible exact d_mErase hR hD _ _ | does1)

theorem d_eraseRangeLoop (hdr f l : Ptr) : Does R (eraseRangeLoop E hdr f l) := by
  revert f
  refine eraseRangeLoop.fixpoint_induct E hdr l (motive := fun g => ∀ x, Does R (g x)) Does.admissible1 ?_
  intro g ih x
  repeat' (first | with_reducible exact ih _ | with_reducible exact d_eraseIter hR hD _ _ | does1)

theorem d_eraseRange (hdr f l : Ptr) : Does R (eraseRange E hdr f l) := by
  unfold eraseRange
  repeat' (first | with_reducible exact d_clear hR hD _ | with_reducible exact d_eraseRangeLoop hR hD _ _ _ | does1)

theorem d_eraseKey (less : Ptr → Ptr → M S Bool) (hdr k : Ptr) : Does R (eraseKey less E hdr k) := by
  unfold eraseKey
  repeat' (first | with_reducible exact d_eraseRange hR hD _ _ _ | does1)

theorem d_eraseKeys (less : Ptr → Ptr → M S Bool) (hdr : Ptr) (ks : List Ptr) : Does R (eraseKeys less E hdr ks) := by
  induction ks with
  | nil => exact .pure hR
  | cons k ks ih => exact .bind hR (d_eraseKey hR hD _ _ _) fun _ => ih

theorem d_moveAssign (b : Bool) (hdr src : Ptr) : Does R (moveAssign E b hdr src) := by
  unfold moveAssign
  repeat' (first | with_reducible exact d_clear hR hD _ | does1)

theorem d_destroyTree (hO : ∀ p, Does R (onO (dropObj p) : M (ST S) Unit)) (hdr : Ptr) : Does R (destroyTree E hdr) := by
  unfold destroyTree
  repeat' (first | with_reducible exact d_mErase hR hD _ _ | with_reducible exact hO _ | does1)

end

/-! ### Functions that construct elements -/

section
variable {E : ElemOps S} (hC : ∀ s a, Does R (createNode E s a))
include hC

section
variable (less : Ptr → Ptr → M S Bool)

theorem d_insert_ (hdr x p : Ptr) (a : Arg) : Does R (insert_ less E hdr x p a) := by
  unfold insert_
  repeat' (first | with_reducible exact hC _ _ | does1)

theorem d_insertUnique (hdr : Ptr) (a : Arg) : Does R (insertUnique less E hdr a) := by
  unfold insertUnique
  repeat' (first | with_reducible exact d_insert_ hR hC _ _ _ _ _ | does1)

theorem d_insertUniqueAt (hdr pos : Ptr) (a : Arg) : Does R (insertUniqueAt less E hdr pos a) := by
  unfold insertUniqueAt
  repeat' (first | with_reducible exact d_insert_ hR hC _ _ _ _ _ | does1)

theorem d_insertLower (hdr p : Ptr) (a : Arg) : Does R (insertLower less E hdr p a) := by
  unfold insertLower
  repeat' (first | with_reducible exact hC _ _ | does1)

theorem d_insertEqualLower (hdr : Ptr) (a : Arg) : Does R (insertEqualLower less E hdr a) := by
  unfold insertEqualLower
  repeat' (first | with_reducible exact d_insertLower hR hC _ _ _ _ | does1)

theorem d_emplaceEqual (hdr : Ptr) (a : Arg) : Does R (emplaceEqual less E hdr a) := by
  unfold emplaceEqual
  repeat' (first | with_reducible exact hC _ _ | does1)

theorem d_emplaceHintEqual (hdr pos : Ptr) (a : Arg) : Does R (emplaceHintEqual less E hdr pos a) := by
  unfold emplaceHintEqual
  repeat' (first | with_reducible exact hC _ _ | does1)

end

theorem d_cloneNode (hdr x : Ptr) : Does R (cloneNode E hdr x) := by
  unfold cloneNode
  repeat' (first | with_reducible exact hC _ _ | does1)

variable (hD : ∀ p, Does R (destroyElem E p))
include hD

theorem d_emplaceUnique (less : Ptr → Ptr → M S Bool) (hdr : Ptr) (a : Arg) : Does R (emplaceUnique less E hdr a) := by
  unfold emplaceUnique
  repeat' (first | with_reducible exact hC _ _ | with_reducible exact d_destroyNode hR hD _ _ | does1)

theorem d_emplaceHintUnique (less : Ptr → Ptr → M S Bool) (hdr pos : Ptr) (a : Arg) : Does R (emplaceHintUnique less E hdr pos a) := by
  unfold emplaceHintUnique
  repeat' (first | with_reducible exact hC _ _ | with_reducible exact d_destroyNode hR hD _ _ | does1)

theorem d_mCopy (hdr x p : Ptr) : Does R (mCopy E hdr x p) := by
  have key := mCopy.fixpoint_induct E hdr (fun g => ∀ x p, Does R (g x p)) (fun g => ∀ t p x, Does R (g t p x)) Does.admissible2 Does.admissible3
    (by
      intro f g hf hg x p
      repeat' (first | with_reducible exact hf _ _ | with_reducible exact hg _ _ _ | with_reducible exact d_cloneNode hR hC _ _ |
        with_reducible exact d_mErase hR hD _ _ | does1))
    (by
      intro f g hf hg t p x
      repeat' (first | with_reducible exact hf _ _ | with_reducible exact hg _ _ _ | with_reducible exact d_cloneNode hR hC _ _ |
        with_reducible exact d_mErase hR hD _ _ | does1))
  exact key x p

variable (hT : Does R (onO tryCtor : M (ST S) Bool))
include hT

theorem d_copyNothrow (b : Bool) (hdr src : Ptr) : Does R (copyNothrow E b hdr src) := by
  unfold copyNothrow
  repeat' (first | with_reducible exact hT | with_reducible exact d_clear hR hD _ | with_reducible exact d_mCopy hR hC hD _ _ _ | does1)

/-- A relation that holds for the steps of the element class and of the allocator holds for all calls. -/
theorem d_exec {A : Type} (hO : ∀ p, Does R (onO (dropObj p) : M (ST S) Unit)) (c : Call S A) : Does R (exec E c) := by
  rcases c with _ | ⟨ord, h, s, a⟩ | _ | _ | _ | _ | _ | _ | _ | _ | _ | _ | _
  rotate_left
  · cases h <;> unfold exec
    all_goals
      repeat' (first | with_reducible exact d_insertUnique hR hC _ _ _ | with_reducible exact d_insertUniqueAt hR hC _ _ _ _ |
        with_reducible exact d_emplaceUnique hR hC hD _ _ _ | with_reducible exact d_emplaceHintUnique hR hC hD _ _ _ _ |
        with_reducible exact d_emplaceEqual hR hC _ _ _ | with_reducible exact d_insertEqualLower hR hC _ _ _ |
        with_reducible exact d_emplaceHintEqual hR hC _ _ _ _ | does1)
  all_goals
    unfold exec
    repeat' (first | with_reducible exact d_eraseKey hR hD _ _ _ | with_reducible exact d_eraseKeys hR hD _ _ _ | with_reducible exact d_eraseIter hR hD _ _ |
      with_reducible exact d_eraseRange hR hD _ _ _ | with_reducible exact d_clear hR hD _ | with_reducible exact d_copyNothrow hR hC hD hT _ _ _ |
      with_reducible exact d_moveAssign hR hD _ _ _ | with_reducible exact d_destroyTree hR hD hO _ | does1)

end

end

end Nestl.TO
