import Verif.LinkedList.Model
import Verif.Quiet
set_option autoImplicit false
/-
Operations of `list` that request no memory, construct no element and report no error.
-/
namespace Nestl
open Lean.Order

namespace LL
variable {V : Type}

theorem Quiet.getNext (p : Ptr) : Quiet (getNext p : M (W V) Ptr) := .bind (.rd p) fun _ => .pure _
theorem Quiet.getPrev (p : Ptr) : Quiet (getPrev p : M (W V) Ptr) := .bind (.rd p) fun _ => .pure _
theorem Quiet.setNext (p q : Ptr) : Quiet (setNext p q : M (W V) Unit) := .modCell _ _
theorem Quiet.setPrev (p q : Ptr) : Quiet (setPrev p q : M (W V) Unit) := .modCell _ _

theorem Quiet.checkNode (p : Ptr) : Quiet (checkNode p : M (W V) Unit) :=
  .bind (.assertM _) fun _ => .bind (getPrev _) fun _ => .bind (.assertM _) fun _ => .bind (getNext _) fun _ =>
    .bind (.assertM _) fun _ => .bind (getPrev _) fun _ => .bind (getNext _) fun _ => .bind (.assertM _) fun _ =>
    .bind (getNext _) fun _ => .bind (getPrev _) fun _ => .assertM _

/-- Follows the structure of a program. -/
macro "quiet" : tactic => `(tactic|
  repeat' first
    | with_reducible assumption
    | with_reducible exact Nestl.Quiet.pure _
    | with_reducible exact Nestl.Quiet.fault _
    | with_reducible exact Nestl.Quiet.rd _
    | with_reducible exact Nestl.Quiet.modCell _ _
    | with_reducible exact Nestl.Quiet.assertM _
    | with_reducible exact Nestl.Quiet.cmp _ _ _
    | with_reducible exact Nestl.Quiet.newObj _
    | with_reducible exact Nestl.Quiet.dropObj _
    | with_reducible exact Nestl.Quiet.freeCell _ _
    | with_reducible exact Quiet.getNext _
    | with_reducible exact Quiet.getPrev _
    | with_reducible exact Quiet.setNext _ _
    | with_reducible exact Quiet.setPrev _ _
    | with_reducible exact Quiet.checkNode _
    | with_reducible apply Nestl.Quiet.bind
    | with_reducible apply Nestl.Quiet.ite
    | with_reducible (split <;> skip)
    | intro _)

theorem Quiet.initEmpty (p : Ptr) : Quiet (initEmpty p : M (W V) Unit) := by unfold LL.initEmpty; quiet
theorem Quiet.transferNodes (a b c : Ptr) : Quiet (transferNodes a b c : M (W V) Unit) := by
  unfold LL.transferNodes; quiet
theorem Quiet.transfer (a b c : Ptr) : Quiet (transfer a b c : M (W V) Unit) :=
  .bind (checkNode a) fun _ => .bind (checkNode b) fun _ => .bind (checkNode c) fun _ => transferNodes a b c
theorem Quiet.swapNodes (a b : Ptr) : Quiet (swapNodes a b : M (W V) Unit) := by unfold LL.swapNodes; quiet
theorem Quiet.swap (a b : Ptr) : Quiet (swap a b : M (W V) Unit) := Quiet.swapNodes b a
theorem Quiet.deref (p : Ptr) : Quiet (deref p : M (W V) V) := by unfold LL.deref; quiet
theorem Quiet.incr (p : Ptr) : Quiet (incr p : M (W V) Ptr) := by unfold LL.incr; quiet
theorem Quiet.itEq (p q : Ptr) : Quiet (itEq p q : M (W V) Bool) := by unfold LL.itEq; quiet
theorem Quiet.begin_ (p : Ptr) : Quiet (begin_ p : M (W V) Ptr) := by unfold LL.begin_; quiet
theorem Quiet.end_ (p : Ptr) : Quiet (end_ p : M (W V) Ptr) := by unfold LL.end_; quiet
theorem Quiet.empty (p : Ptr) : Quiet (empty p : M (W V) Bool) := by unfold LL.empty; quiet
theorem Quiet.newList (a : Nat) : Quiet (newList a : M (W V) Ptr) :=
  .bind (.newObj _) fun s => .bind (initEmpty s) fun _ => .pure _
theorem Quiet.destroyVal (p : Ptr) : Quiet (destroyVal p : M (W V) Unit) := by unfold LL.destroyVal; quiet
theorem Quiet.putNode (s p : Ptr) : Quiet (putNode s p : M (W V) Unit) := by unfold LL.putNode; quiet
theorem Quiet.arrAt (tmp : List Ptr) (i : Nat) : Quiet (arrAt tmp i : M (W V) Ptr) := by unfold LL.arrAt; quiet

theorem Quiet.destroyLoop (s p : Ptr) : Quiet (destroyLoop s p : M (W V) Unit) := by
  revert p
  refine LL.destroyLoop.fixpoint_induct s _ Quiet.admissible1 ?_
  intro f hf p
  exact .ite (.bind (getNext p) fun q => .bind (destroyVal p) fun _ => .bind (putNode s p) fun _ => hf q) (.pure _)

theorem Quiet.destroyContent (s : Ptr) : Quiet (destroyContent s : M (W V) Unit) :=
  .bind (getNext s) fun q => destroyLoop s q
theorem Quiet.destroyList (s : Ptr) : Quiet (destroyList s : M (W V) Unit) :=
  .bind (destroyContent s) fun _ => .dropObj s
theorem Quiet.clear (s : Ptr) : Quiet (clear s : M (W V) Unit) := .bind (destroyContent s) fun _ => initEmpty s
theorem Quiet.moveCtor (s : Ptr) : Quiet (moveCtor s : M (W V) Ptr) :=
  .bind (.rd s) fun _ => .bind (newList _) fun _ => .bind (swapNodes _ _) fun _ => .pure _

theorem Quiet.moveAssign (s t : Ptr) : Quiet (moveAssign s t : M (W V) Unit) :=
  .bind (moveCtor _) fun _ => .bind (swap _ _) fun _ => destroyList _
theorem Quiet.removeNode (p : Ptr) : Quiet (removeNode p : M (W V) Unit) := by unfold LL.removeNode; quiet
theorem Quiet.erase (s p : Ptr) : Quiet (erase s p : M (W V) Ptr) :=
  .bind (checkNode _) fun _ => .bind (getNext _) fun _ => .bind (checkNode _) fun _ => .bind (removeNode _) fun _ =>
    .bind (destroyVal _) fun _ => .bind (putNode _ _) fun _ => .pure _
theorem Quiet.eraseRange (s f l : Ptr) : Quiet (eraseRange s f l : M (W V) Ptr) := by
  revert f
  refine LL.eraseRange.fixpoint_induct s l _ Quiet.admissible1 ?_
  intro g hg f
  exact .bind (itEq _ _) fun _ => .ite (.pure _) (.bind (erase _ _) fun _ => hg _)

theorem Quiet.mergeLoop (lt : V → V → Bool) (a b c d : Ptr) : Quiet (mergeLoop lt a b c d : M (W V) Ptr) := by
  revert a c
  refine LL.mergeLoop.fixpoint_induct lt b d _ Quiet.admissible2 ?_
  intro f hf a c
  exact .bind (itEq _ _) fun _ => .ite (.pure _) (.bind (itEq _ _) fun _ => .ite (.pure _)
    (.bind (deref _) fun _ => .bind (deref _) fun _ => .bind (.cmp _ _ _) fun _ => .ite
      (.bind (incr _) fun _ => .bind (transfer _ _ _) fun _ => hf _ _) (.bind (incr _) fun _ => hf _ _)))

theorem Quiet.merge (lt : V → V → Bool) (s t : Ptr) : Quiet (merge lt s t : M (W V) Unit) :=
  .bind (.assertM _) fun _ => .bind (begin_ _) fun _ => .bind (end_ _) fun _ => .bind (begin_ _) fun _ =>
    .bind (end_ _) fun _ => .bind (mergeLoop _ _ _ _ _) fun _ => .bind (itEq _ _) fun _ => .ite (.pure _) (transfer _ _ _)

theorem Quiet.spliceAll (pos t : Ptr) : Quiet (spliceAll pos t : M (W V) Unit) :=
  .bind (empty _) fun _ => .ite (.pure _) (.bind (begin_ _) fun _ => .bind (end_ _) fun _ => transfer _ _ _)
theorem Quiet.spliceOne (pos it : Ptr) : Quiet (spliceOne pos it : M (W V) Unit) :=
  .bind (incr _) fun _ => .bind (itEq _ _) fun _ => .ite (.pure _) (.bind (itEq _ _) fun _ => .ite (.pure _)
    (transfer _ _ _))
theorem Quiet.spliceRange (pos f l : Ptr) : Quiet (spliceRange pos f l : M (W V) Unit) :=
  .bind (itEq _ _) fun _ => .ite (.pure _) (transfer _ _ _)

theorem Quiet.newLists (n : Nat) : Quiet (newLists n : M (W V) (List Ptr)) := by
  induction n with
  | zero => exact .pure _
  | succ n ih => exact .bind (newList _) fun _ => .bind ih fun _ => .pure _
theorem Quiet.destroyLists (l : List Ptr) : Quiet (destroyLists l : M (W V) Unit) := by
  induction l with
  | nil => exact .pure _
  | cons p l ih => exact .bind ih fun _ => destroyList p

theorem Quiet.sortCarry (lt : V → V → Bool) (carry : Ptr) (tmp : List Ptr) (fill i : Nat) :
    Quiet (sortCarry lt carry tmp fill i : M (W V) Nat) := by
  revert i
  refine LL.sortCarry.fixpoint_induct lt carry tmp fill _ Quiet.admissible1 ?_
  intro f hf i
  exact .ite (.bind (arrAt _ _) fun _ => .bind (empty _) fun _ => .ite (.pure _)
    (.bind (merge _ _ _) fun _ => .bind (swap _ _) fun _ => hf _)) (.pure _)

theorem Quiet.sortLoop (lt : V → V → Bool) (s carry : Ptr) (tmp : List Ptr) (fill : Nat) :
    Quiet (sortLoop lt s carry tmp fill : M (W V) Nat) := by
  revert fill
  refine LL.sortLoop.fixpoint_induct lt s carry tmp _ Quiet.admissible1 ?_
  intro f hf i
  exact .bind (begin_ _) fun _ => .bind (begin_ _) fun _ => .bind (spliceOne _ _) fun _ =>
    .bind (sortCarry _ _ _ _ _) fun _ => .bind (arrAt _ _) fun _ => .bind (swap _ _) fun _ =>
    .bind (empty _) fun _ => .ite (.pure _) (hf _)

theorem Quiet.sortMerge (lt : V → V → Bool) (tmp : List Ptr) (fill i : Nat) :
    Quiet (sortMerge lt tmp fill i : M (W V) Unit) := by
  revert i
  refine LL.sortMerge.fixpoint_induct lt tmp fill _ Quiet.admissible1 ?_
  intro f hf i
  exact .ite (.bind (arrAt _ _) fun _ => .bind (arrAt _ _) fun _ => .bind (merge _ _ _) fun _ => hf _) (.pure _)

theorem Quiet.sort (lt : V → V → Bool) (s : Ptr) : Quiet (sort lt s : M (W V) Unit) :=
  .bind (getNext _) fun _ => .ite (.bind (getNext _) fun _ => .bind (getNext _) fun _ => .ite
    (.bind (newList _) fun _ => .bind (newLists _) fun _ => .bind (sortLoop _ _ _ _ _) fun _ =>
      .bind (sortMerge _ _ _ _) fun _ => .bind (arrAt _ _) fun _ => .bind (swap _ _) fun _ =>
      .bind (destroyLists _) fun _ => destroyList _) (.pure _)) (.pure _)

end LL
end Nestl
