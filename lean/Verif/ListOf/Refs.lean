import Verif.NodeOf.Does
import Verif.ListOf.Client
set_option autoImplicit false
/-
What the functions of lists of objects can do to the elements: functions that only follow and change links, functions that also
destroy elements, and functions that also construct elements.
-/
namespace Nestl.LO
open Nestl.VO (ElemOps)
open Nestl.NO
open Nestl.LL (LNode)
variable {S : Type}

/-! ### Links -/

section
variable (p q r : Ptr)
theorem l_getNext : Link (LL.getNext p : M (LL.W Ptr) Ptr) := by unfold LL.getNext; links
theorem l_getPrev : Link (LL.getPrev p : M (LL.W Ptr) Ptr) := by unfold LL.getPrev; links
theorem l_setNext : Link (LL.setNext p q : M (LL.W Ptr) Unit) := .modCell fun _ => rfl
theorem l_setPrev : Link (LL.setPrev p q : M (LL.W Ptr) Unit) := .modCell fun _ => rfl
theorem l_getAlloc : Link (LC.getAlloc p : M (LL.W Ptr) Nat) := by unfold LC.getAlloc; links
macro_rules | `(tactic| link1) => `(tactic| with_reducible exact l_getNext _)
macro_rules | `(tactic| link1) => `(tactic| with_reducible exact l_getPrev _)
macro_rules | `(tactic| link1) => `(tactic| with_reducible exact l_setNext _ _)
macro_rules | `(tactic| link1) => `(tactic| with_reducible exact l_setPrev _ _)
theorem l_checkNode : Link (LL.checkNode p : M (LL.W Ptr) Unit) := by unfold LL.checkNode; links
macro_rules | `(tactic| link1) => `(tactic| with_reducible exact l_checkNode _)
theorem l_initEmpty : Link (LL.initEmpty p : M (LL.W Ptr) Unit) := by unfold LL.initEmpty; links
theorem l_inject : Link (LL.inject p q : M (LL.W Ptr) Unit) := by unfold LL.inject; links
theorem l_removeNode : Link (LL.removeNode p : M (LL.W Ptr) Unit) := by unfold LL.removeNode; links
theorem l_transferNodes : Link (LL.transferNodes p q r : M (LL.W Ptr) Unit) := by unfold LL.transferNodes; links
theorem l_swapNodes : Link (LL.swapNodes p q : M (LL.W Ptr) Unit) := by unfold LL.swapNodes; links
theorem l_swap : Link (LL.swap p q : M (LL.W Ptr) Unit) := l_swapNodes q p
theorem l_incr : Link (LL.incr p : M (LL.W Ptr) Ptr) := by unfold LL.incr; links
theorem l_decr : Link (LL.decr p : M (LL.W Ptr) Ptr) := by unfold LL.decr; links
theorem l_itEq : Link (LL.itEq p q : M (LL.W Ptr) Bool) := by unfold LL.itEq; links
theorem l_begin : Link (LL.begin_ p : M (LL.W Ptr) Ptr) := by unfold LL.begin_; links
theorem l_end : Link (LL.end_ p : M (LL.W Ptr) Ptr) := by unfold LL.end_; links
theorem l_empty : Link (LL.empty p : M (LL.W Ptr) Bool) := by unfold LL.empty; links
macro_rules | `(tactic| link1) => `(tactic| with_reducible exact l_transferNodes _ _ _)
macro_rules | `(tactic| link1) => `(tactic| with_reducible exact l_initEmpty _)
macro_rules | `(tactic| link1) => `(tactic| with_reducible exact l_incr _)
macro_rules | `(tactic| link1) => `(tactic| with_reducible exact l_itEq _ _)
macro_rules | `(tactic| link1) => `(tactic| with_reducible exact l_begin _)
macro_rules | `(tactic| link1) => `(tactic| with_reducible exact l_end _)
macro_rules | `(tactic| link1) => `(tactic| with_reducible exact l_empty _)
macro_rules | `(tactic| link1) => `(tactic| with_reducible exact l_swapNodes _ _)
macro_rules | `(tactic| link1) => `(tactic| with_reducible exact l_swap _ _)
theorem l_transfer : Link (LL.transfer p q r : M (LL.W Ptr) Unit) := by unfold LL.transfer; links
macro_rules | `(tactic| link1) => `(tactic| with_reducible exact l_transfer _ _ _)
theorem l_spliceAll : Link (LL.spliceAll p q : M (LL.W Ptr) Unit) := by unfold LL.spliceAll; links
theorem l_spliceOne : Link (LL.spliceOne p q : M (LL.W Ptr) Unit) := by unfold LL.spliceOne; links
theorem l_spliceRange : Link (LL.spliceRange p q r : M (LL.W Ptr) Unit) := by unfold LL.spliceRange; links
theorem l_arrAt (tmp : List Ptr) (i : Nat) : Link (LL.arrAt tmp i : M (LL.W Ptr) Ptr) := by unfold LL.arrAt; links
theorem l_newList (a : Nat) : Link (LL.newList a : M (LL.W Ptr) Ptr) := by unfold LL.newList; links
theorem l_newLists (n : Nat) : Link (LL.newLists n : M (LL.W Ptr) (List Ptr)) := by
  induction n with
  | zero => exact .pure
  | succ n ih => exact .bind (l_newList _) fun _ => .bind ih fun _ => .pure
macro_rules | `(tactic| link1) => `(tactic| with_reducible exact l_newList _)
theorem l_moveCtor : Link (LL.moveCtor p : M (LL.W Ptr) Ptr) := by unfold LL.moveCtor; links
theorem l_deref : Link (LL.deref p : M (LL.W Ptr) Ptr) := by unfold LL.deref; links
theorem l_putNode : Link (LL.putNode p q : M (LL.W Ptr) Unit) := by
  unfold LL.putNode
  refine .bind (.rd _) fun c => .freeCell fun d h => ?_
  split at h
  · cases h
  · split at h
    · cases h
    · rename_i h2
      show d.val = none
      cases e : d.val with
      | none => rfl
      | some x => rw [e] at h2; exact (h2 rfl).elim
theorem l_distance : Link (LL.distance p q : M (LL.W Ptr) Nat) := by
  revert p
  refine LL.distance.fixpoint_induct (V := Ptr) q (motive := fun n => ∀ p, Link (n p)) Link.admissible1 ?_
  intro g ih f
  exact .bind (l_itEq _ _) fun _ => .ite (fun _ => .pure) fun _ => .bind (l_incr _) fun _ => .bind (ih _) fun _ => .pure
theorem l_size : Link (LL.size p : M (LL.W Ptr) Nat) := .bind (l_begin _) fun _ => .bind (l_end _) fun _ => l_distance _ _
end

macro_rules | `(tactic| link1) => `(tactic| with_reducible exact l_getAlloc _)
macro_rules | `(tactic| link1) => `(tactic| with_reducible exact l_inject _ _)
macro_rules | `(tactic| link1) => `(tactic| with_reducible exact l_removeNode _)
macro_rules | `(tactic| link1) => `(tactic| with_reducible exact l_spliceAll _ _)
macro_rules | `(tactic| link1) => `(tactic| with_reducible exact l_spliceOne _ _)
macro_rules | `(tactic| link1) => `(tactic| with_reducible exact l_spliceRange _ _ _)
macro_rules | `(tactic| link1) => `(tactic| with_reducible exact l_arrAt _ _)
macro_rules | `(tactic| link1) => `(tactic| with_reducible exact l_newLists _)
macro_rules | `(tactic| link1) => `(tactic| with_reducible exact l_moveCtor _)
macro_rules | `(tactic| link1) => `(tactic| with_reducible exact l_deref _)
macro_rules | `(tactic| link1) => `(tactic| with_reducible exact l_putNode _ _)
macro_rules | `(tactic| link1) => `(tactic| with_reducible exact l_size _)
macro_rules | `(tactic| does1) => `(tactic| with_reducible refine Moves.link ‹Moves _› _ (by links))

/-! ### Functions that change links and destroy elements -/

section
variable {R : ST S → ST S → Prop} {E : ElemOps S}

theorem d_mergeLoop (hR : Moves R) (less : Ptr → Ptr → M S Bool) (l1 l2 f1 f2 : Ptr) : Does R (mergeLoop less f1 l1 f2 l2) := by
  revert f1 f2
  have := mergeLoop.fixpoint_induct less l1 l2 (motive := fun (g : Ptr → Ptr → M (ST S) Ptr) => ∀ f1 f2, Does R (g f1 f2)) Does.admissible2 (by
    intro g ih f1 f2
    repeat' (first | with_reducible exact ih _ _ | does1))
  exact this

theorem d_merge (hR : Moves R) (less : Ptr → Ptr → M S Bool) (s t : Ptr) : Does R (merge less s t) := by
  unfold merge
  repeat' (first | with_reducible exact d_mergeLoop hR _ _ _ _ _ | does1)

variable (hR : Moves R) (hD : ∀ p, Does R (destroyElem E p)) (hO : ∀ p, Does R (onO (dropObj p) : M (ST S) Unit))
include hR hD

theorem d_destroyLoop (s p : Ptr) : Does R (destroyLoop E s p) := by
  revert p
  refine destroyLoop.fixpoint_induct E s (motive := fun g => ∀ p, Does R (g p)) Does.admissible1 ?_
  intro g ih p
  repeat' (first | with_reducible exact ih _ | exact hD _ | does1)

theorem d_destroyContent (s : Ptr) : Does R (destroyContent E s) := by
  unfold destroyContent
  repeat' (first | with_reducible exact d_destroyLoop hR hD _ _ | does1)

include hO in
theorem d_destroyList (s : Ptr) : Does R (destroyList E s) := .bind hR (d_destroyContent hR hD s) fun _ => hO s

theorem d_clear (s : Ptr) : Does R (clear E s) := by
  unfold clear
  repeat' (first | with_reducible exact d_destroyContent hR hD _ | does1)

include hO in
theorem d_moveAssign (s t : Ptr) : Does R (moveAssign E s t) := by
  unfold moveAssign
  repeat' (first | with_reducible exact d_destroyList hR hD hO _ | does1)

theorem d_erase (s p : Ptr) : Does R (erase E s p) := by
  unfold erase
  repeat' (first | exact hD _ | does1)

theorem d_eraseRange (s f l : Ptr) : Does R (eraseRange E s f l) := by
  revert f
  refine eraseRange.fixpoint_induct E s l (motive := fun g => ∀ p, Does R (g p)) Does.admissible1 ?_
  intro g ih p
  repeat' (first | with_reducible exact ih _ | with_reducible exact d_erase hR hD _ _ | does1)

theorem d_popBack (s : Ptr) : Does R (popBack E s) := by
  unfold popBack
  repeat' (first | with_reducible exact d_erase hR hD _ _ | does1)

theorem d_popFront (s : Ptr) : Does R (popFront E s) := by
  unfold popFront
  repeat' (first | with_reducible exact d_erase hR hD _ _ | does1)

include hO in
theorem d_destroyLists (ps : List Ptr) : Does R (destroyLists E ps) := by
  induction ps with
  | nil => exact .pure hR
  | cons p ps ih => exact .bind hR ih fun _ => d_destroyList hR hD hO p

omit hD in
theorem d_sortCarry (less : Ptr → Ptr → M S Bool) (carry : Ptr) (tmp : List Ptr) (fill i : Nat) : Does R (sortCarry less carry tmp fill i) := by
  revert i
  refine sortCarry.fixpoint_induct less carry tmp fill (motive := fun g => ∀ p, Does R (g p)) Does.admissible1 ?_
  intro g ih p
  repeat' (first | with_reducible exact ih _ | with_reducible exact d_merge hR _ _ _ | does1)

omit hD in
theorem d_sortLoop (less : Ptr → Ptr → M S Bool) (s carry : Ptr) (tmp : List Ptr) (fill : Nat) : Does R (sortLoop less s carry tmp fill) := by
  revert fill
  refine sortLoop.fixpoint_induct less s carry tmp (motive := fun g => ∀ p, Does R (g p)) Does.admissible1 ?_
  intro g ih p
  repeat' (first | with_reducible exact ih _ | with_reducible exact d_sortCarry hR _ _ _ _ _ | does1)

omit hD in
theorem d_sortMerge (less : Ptr → Ptr → M S Bool) (tmp : List Ptr) (fill i : Nat) : Does R (sortMerge less tmp fill i) := by
  revert i
  refine sortMerge.fixpoint_induct less tmp fill (motive := fun g => ∀ p, Does R (g p)) Does.admissible1 ?_
  intro g ih p
  repeat' (first | with_reducible exact ih _ | with_reducible exact d_merge hR _ _ _ | does1)

include hO in
theorem d_sort (less : Ptr → Ptr → M S Bool) (s : Ptr) : Does R (sort E less s) := by
  unfold sort
  repeat' (first | with_reducible exact d_destroyLists hR hD hO _ | with_reducible exact d_destroyList hR hD hO _ | with_reducible exact d_sortLoop hR _ _ _ _ _ |
    with_reducible exact d_sortMerge hR _ _ _ _ | does1)

end

/-! ### Functions that construct elements -/

section
variable {R : ST S → ST S → Prop} {E : ElemOps S} (hR : Moves R) (hC : ∀ s a, Does R (createNode E s a))
include hR hC

theorem d_emplace (s p : Ptr) (a : Arg) : Does R (emplace E s p a) := by
  unfold emplace
  repeat' (first | with_reducible exact hC _ _ | does1)

theorem d_insertN (s : Ptr) (a : Arg) (n : Nat) : ∀ p, Does R (insertN E s p a n) := by
  induction n with
  | zero => exact fun _ => .pure hR
  | succ n ih =>
    intro p
    unfold insertN
    repeat' (first | with_reducible exact ih _ | with_reducible exact d_emplace hR hC _ _ _ | does1)

theorem d_insertRange (s : Ptr) (ts : List Ptr) : ∀ p, Does R (insertRange E s p ts) := by
  induction ts with
  | nil => exact fun _ => .pure hR
  | cons t ts ih =>
    intro p
    unfold insertRange
    repeat' (first | with_reducible exact ih _ | with_reducible exact d_emplace hR hC _ _ _ | does1)

theorem d_pushBack (s : Ptr) (a : Arg) : Does R (pushBack E s a) := by
  unfold pushBack
  repeat' (first | with_reducible exact d_emplace hR hC _ _ _ | does1)

theorem d_pushFront (s : Ptr) (a : Arg) : Does R (pushFront E s a) := by
  unfold pushFront
  repeat' (first | with_reducible exact d_emplace hR hC _ _ _ | does1)

theorem d_assignLoop (s : Ptr) (a : Arg) (n : Nat) : Does R (assignLoop E s a n) := by
  induction n with
  | zero => exact .pure hR
  | succ n ih =>
    unfold assignLoop
    repeat' (first | with_reducible exact ih | with_reducible exact d_pushBack hR hC _ _ | does1)

theorem d_assignValsLoop (s : Ptr) (ts : List Ptr) : Does R (assignValsLoop E s ts) := by
  induction ts with
  | nil => exact .pure hR
  | cons t ts ih =>
    unfold assignValsLoop
    repeat' (first | with_reducible exact ih | with_reducible exact d_pushBack hR hC _ _ | does1)

theorem d_assignItLoop (s f l : Ptr) : Does R (assignItLoop E s f l) := by
  revert f
  refine assignItLoop.fixpoint_induct E s l (motive := fun g => ∀ p, Does R (g p)) Does.admissible1 ?_
  intro g ih p
  repeat' (first | with_reducible exact ih _ | with_reducible exact d_pushBack hR hC _ _ | does1)

variable (hD : ∀ p, Does R (destroyElem E p)) (hO : ∀ p, Does R (onO (dropObj p) : M (ST S) Unit))
include hD hO

theorem d_assignN (s : Ptr) (n : Nat) (a : Arg) : Does R (assignN E s n a) := by
  unfold assignN
  repeat' (first | with_reducible exact d_assignLoop hR hC _ _ _ | with_reducible exact d_destroyList hR hD hO _ | does1)

theorem d_assignVals (s : Ptr) (ts : List Ptr) : Does R (assignVals E s ts) := by
  unfold assignVals
  repeat' (first | with_reducible exact d_assignValsLoop hR hC _ _ | with_reducible exact d_destroyList hR hD hO _ | does1)

theorem d_assignIt (s f l : Ptr) : Does R (assignIt E s f l) := by
  unfold assignIt
  repeat' (first | with_reducible exact d_assignItLoop hR hC _ _ _ | with_reducible exact d_destroyList hR hD hO _ | does1)

theorem d_copyNothrow (s t : Ptr) : Does R (copyNothrow E s t) := by
  unfold copyNothrow
  repeat' (first | with_reducible exact d_assignIt hR hC hD hO _ _ _ | does1)

/-- A relation that holds for the steps of the element class and of the allocator holds for all calls. -/
theorem d_exec (c : Call S) : Does R (exec E c) := by
  cases c <;> unfold exec
  all_goals
    repeat' (first | with_reducible exact d_emplace hR hC _ _ _ | with_reducible exact d_insertN hR hC _ _ _ _ | with_reducible exact d_insertRange hR hC _ _ _ |
      with_reducible exact d_erase hR hD _ _ | with_reducible exact d_eraseRange hR hD _ _ _ | with_reducible exact d_pushBack hR hC _ _ | with_reducible exact d_pushFront hR hC _ _ |
      with_reducible exact d_popBack hR hD _ | with_reducible exact d_popFront hR hD _ | with_reducible exact d_clear hR hD _ | with_reducible exact d_assignN hR hC hD hO _ _ _ |
      with_reducible exact d_assignVals hR hC hD hO _ _ | with_reducible exact d_assignIt hR hC hD hO _ _ _ | with_reducible exact d_copyNothrow hR hC hD hO _ _ |
      with_reducible exact d_moveAssign hR hD hO _ _ | with_reducible exact d_merge hR _ _ _ | with_reducible exact d_sort hR hD hO _ _ | with_reducible exact d_destroyList hR hD hO _ | does1)

end

end Nestl.LO
