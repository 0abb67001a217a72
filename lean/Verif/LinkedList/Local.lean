import Verif.LinkedList.Client
import Verif.Local
set_option autoImplicit false
/-
The operations of `list` touch nothing but the memory they are given.
-/
namespace Nestl.LL
open Lean.Order
variable {V : Type}

theorem Local.getNext (p : Ptr) : Local (getNext p : M (W V) Ptr) := .bind (.rd p) fun _ => .pure _
macro_rules | `(tactic| local_leaf) => `(tactic| with_reducible exact Local.getNext _)
theorem Local.getPrev (p : Ptr) : Local (getPrev p : M (W V) Ptr) := .bind (.rd p) fun _ => .pure _
macro_rules | `(tactic| local_leaf) => `(tactic| with_reducible exact Local.getPrev _)
theorem Local.setNext (p q : Ptr) : Local (setNext p q : M (W V) Unit) := .modCell _ _
macro_rules | `(tactic| local_leaf) => `(tactic| with_reducible exact Local.setNext _ _)
theorem Local.setPrev (p q : Ptr) : Local (setPrev p q : M (W V) Unit) := .modCell _ _
macro_rules | `(tactic| local_leaf) => `(tactic| with_reducible exact Local.setPrev _ _)
theorem Local.checkNode (p : Ptr) : Local (checkNode p : M (W V) Unit) :=
  .bind (.assertM _) fun _ => .bind (getPrev _) fun _ => .bind (.assertM _) fun _ => .bind (getNext _) fun _ =>
    .bind (.assertM _) fun _ => .bind (getPrev _) fun _ => .bind (getNext _) fun _ => .bind (.assertM _) fun _ =>
    .bind (getNext _) fun _ => .bind (getPrev _) fun _ => .assertM _
macro_rules | `(tactic| local_leaf) => `(tactic| with_reducible exact Local.checkNode _)
theorem Local.initEmpty (p : Ptr) : Local (initEmpty p : M (W V) Unit) := by unfold LL.initEmpty; locally
macro_rules | `(tactic| local_leaf) => `(tactic| with_reducible exact Local.initEmpty _)
theorem Local.transferNodes (a b c : Ptr) : Local (transferNodes a b c : M (W V) Unit) := by
  unfold LL.transferNodes; locally
macro_rules | `(tactic| local_leaf) => `(tactic| with_reducible exact Local.transferNodes _ _ _)
theorem Local.transfer (a b c : Ptr) : Local (transfer a b c : M (W V) Unit) :=
  .bind (checkNode a) fun _ => .bind (checkNode b) fun _ => .bind (checkNode c) fun _ => transferNodes a b c
macro_rules | `(tactic| local_leaf) => `(tactic| with_reducible exact Local.transfer _ _ _)
theorem Local.swapNodes (a b : Ptr) : Local (swapNodes a b : M (W V) Unit) := by unfold LL.swapNodes; locally
macro_rules | `(tactic| local_leaf) => `(tactic| with_reducible exact Local.swapNodes _ _)
theorem Local.swap (a b : Ptr) : Local (swap a b : M (W V) Unit) := Local.swapNodes b a
macro_rules | `(tactic| local_leaf) => `(tactic| with_reducible exact Local.swap _ _)
theorem Local.deref (p : Ptr) : Local (deref p : M (W V) V) := by unfold LL.deref; locally
macro_rules | `(tactic| local_leaf) => `(tactic| with_reducible exact Local.deref _)
theorem Local.incr (p : Ptr) : Local (incr p : M (W V) Ptr) := by unfold LL.incr; locally
macro_rules | `(tactic| local_leaf) => `(tactic| with_reducible exact Local.incr _)
theorem Local.itEq (p q : Ptr) : Local (itEq p q : M (W V) Bool) := by unfold LL.itEq; locally
macro_rules | `(tactic| local_leaf) => `(tactic| with_reducible exact Local.itEq _ _)
theorem Local.begin_ (p : Ptr) : Local (begin_ p : M (W V) Ptr) := by unfold LL.begin_; locally
macro_rules | `(tactic| local_leaf) => `(tactic| with_reducible exact Local.begin_ _)
theorem Local.end_ (p : Ptr) : Local (end_ p : M (W V) Ptr) := by unfold LL.end_; locally
macro_rules | `(tactic| local_leaf) => `(tactic| with_reducible exact Local.end_ _)
theorem Local.empty (p : Ptr) : Local (empty p : M (W V) Bool) := by unfold LL.empty; locally
macro_rules | `(tactic| local_leaf) => `(tactic| with_reducible exact Local.empty _)
theorem Local.newList (a : Nat) : Local (newList a : M (W V) Ptr) :=
  .bind (.newObj _) fun s => .bind (initEmpty s) fun _ => .pure _
macro_rules | `(tactic| local_leaf) => `(tactic| with_reducible exact Local.newList _)
theorem Local.destroyVal (p : Ptr) : Local (destroyVal p : M (W V) Unit) := by unfold LL.destroyVal; locally
macro_rules | `(tactic| local_leaf) => `(tactic| with_reducible exact Local.destroyVal _)
theorem Local.putNode (s p : Ptr) : Local (putNode s p : M (W V) Unit) := by unfold LL.putNode; locally
macro_rules | `(tactic| local_leaf) => `(tactic| with_reducible exact Local.putNode _ _)
theorem Local.arrAt (tmp : List Ptr) (i : Nat) : Local (arrAt tmp i : M (W V) Ptr) := by unfold LL.arrAt; locally
macro_rules | `(tactic| local_leaf) => `(tactic| with_reducible exact Local.arrAt _ _)
theorem Local.destroyLoop (s p : Ptr) : Local (destroyLoop s p : M (W V) Unit) := by
  revert p
  refine LL.destroyLoop.fixpoint_induct s _ Local.admissible1 ?_
  intro f hf p
  exact .ite (.bind (getNext p) fun q => .bind (destroyVal p) fun _ => .bind (putNode s p) fun _ => hf q) (.pure _)
macro_rules | `(tactic| local_leaf) => `(tactic| with_reducible exact Local.destroyLoop _ _)
theorem Local.destroyContent (s : Ptr) : Local (destroyContent s : M (W V) Unit) :=
  .bind (getNext s) fun q => destroyLoop s q
macro_rules | `(tactic| local_leaf) => `(tactic| with_reducible exact Local.destroyContent _)
theorem Local.destroyList (s : Ptr) : Local (destroyList s : M (W V) Unit) :=
  .bind (destroyContent s) fun _ => .dropObj s
macro_rules | `(tactic| local_leaf) => `(tactic| with_reducible exact Local.destroyList _)
theorem Local.clear (s : Ptr) : Local (clear s : M (W V) Unit) := .bind (destroyContent s) fun _ => initEmpty s
macro_rules | `(tactic| local_leaf) => `(tactic| with_reducible exact Local.clear _)
theorem Local.moveCtor (s : Ptr) : Local (moveCtor s : M (W V) Ptr) :=
  .bind (.rd s) fun _ => .bind (newList _) fun _ => .bind (swapNodes _ _) fun _ => .pure _
macro_rules | `(tactic| local_leaf) => `(tactic| with_reducible exact Local.moveCtor _)
theorem Local.moveAssign (s t : Ptr) : Local (moveAssign s t : M (W V) Unit) :=
  .bind (moveCtor _) fun _ => .bind (swap _ _) fun _ => destroyList _
macro_rules | `(tactic| local_leaf) => `(tactic| with_reducible exact Local.moveAssign _ _)
theorem Local.removeNode (p : Ptr) : Local (removeNode p : M (W V) Unit) := by unfold LL.removeNode; locally
macro_rules | `(tactic| local_leaf) => `(tactic| with_reducible exact Local.removeNode _)
theorem Local.erase (s p : Ptr) : Local (erase s p : M (W V) Ptr) :=
  .bind (checkNode _) fun _ => .bind (getNext _) fun _ => .bind (checkNode _) fun _ => .bind (removeNode _) fun _ =>
    .bind (destroyVal _) fun _ => .bind (putNode _ _) fun _ => .pure _
macro_rules | `(tactic| local_leaf) => `(tactic| with_reducible exact Local.erase _ _)
theorem Local.eraseRange (s f l : Ptr) : Local (eraseRange s f l : M (W V) Ptr) := by
  revert f
  refine LL.eraseRange.fixpoint_induct s l _ Local.admissible1 ?_
  intro g hg f
  exact .bind (itEq _ _) fun _ => .ite (.pure _) (.bind (erase _ _) fun _ => hg _)
macro_rules | `(tactic| local_leaf) => `(tactic| with_reducible exact Local.eraseRange _ _ _)
theorem Local.mergeLoop (lt : V → V → Bool) (a b c d : Ptr) : Local (mergeLoop lt a b c d : M (W V) Ptr) := by
  revert a c
  refine LL.mergeLoop.fixpoint_induct lt b d _ Local.admissible2 ?_
  intro f hf a c
  exact .bind (itEq _ _) fun _ => .ite (.pure _) (.bind (itEq _ _) fun _ => .ite (.pure _)
    (.bind (deref _) fun _ => .bind (deref _) fun _ => .bind (.cmp _ _ _) fun _ => .ite
      (.bind (incr _) fun _ => .bind (transfer _ _ _) fun _ => hf _ _) (.bind (incr _) fun _ => hf _ _)))
macro_rules | `(tactic| local_leaf) => `(tactic| with_reducible exact Local.mergeLoop _ _ _ _ _)
theorem Local.merge (lt : V → V → Bool) (s t : Ptr) : Local (merge lt s t : M (W V) Unit) :=
  .bind (.assertM _) fun _ => .bind (begin_ _) fun _ => .bind (end_ _) fun _ => .bind (begin_ _) fun _ =>
    .bind (end_ _) fun _ => .bind (mergeLoop _ _ _ _ _) fun _ => .bind (itEq _ _) fun _ => .ite (.pure _) (transfer _ _ _)
macro_rules | `(tactic| local_leaf) => `(tactic| with_reducible exact Local.merge _ _ _)
theorem Local.spliceAll (pos t : Ptr) : Local (spliceAll pos t : M (W V) Unit) :=
  .bind (empty _) fun _ => .ite (.pure _) (.bind (begin_ _) fun _ => .bind (end_ _) fun _ => transfer _ _ _)
macro_rules | `(tactic| local_leaf) => `(tactic| with_reducible exact Local.spliceAll _ _)
theorem Local.spliceOne (pos it : Ptr) : Local (spliceOne pos it : M (W V) Unit) :=
  .bind (incr _) fun _ => .bind (itEq _ _) fun _ => .ite (.pure _) (.bind (itEq _ _) fun _ => .ite (.pure _)
    (transfer _ _ _))
macro_rules | `(tactic| local_leaf) => `(tactic| with_reducible exact Local.spliceOne _ _)
theorem Local.spliceRange (pos f l : Ptr) : Local (spliceRange pos f l : M (W V) Unit) :=
  .bind (itEq _ _) fun _ => .ite (.pure _) (transfer _ _ _)
macro_rules | `(tactic| local_leaf) => `(tactic| with_reducible exact Local.spliceRange _ _ _)
theorem Local.newLists (n : Nat) : Local (newLists n : M (W V) (List Ptr)) := by
  induction n with
  | zero => exact .pure _
  | succ n ih => exact .bind (newList _) fun _ => .bind ih fun _ => .pure _
macro_rules | `(tactic| local_leaf) => `(tactic| with_reducible exact Local.newLists _)
theorem Local.destroyLists (l : List Ptr) : Local (destroyLists l : M (W V) Unit) := by
  induction l with
  | nil => exact .pure _
  | cons p l ih => exact .bind ih fun _ => destroyList p
macro_rules | `(tactic| local_leaf) => `(tactic| with_reducible exact Local.destroyLists _)
theorem Local.sortCarry (lt : V → V → Bool) (carry : Ptr) (tmp : List Ptr) (fill i : Nat) :
    Local (sortCarry lt carry tmp fill i : M (W V) Nat) := by
  revert i
  refine LL.sortCarry.fixpoint_induct lt carry tmp fill _ Local.admissible1 ?_
  intro f hf i
  exact .ite (.bind (arrAt _ _) fun _ => .bind (empty _) fun _ => .ite (.pure _)
    (.bind (merge _ _ _) fun _ => .bind (swap _ _) fun _ => hf _)) (.pure _)
macro_rules | `(tactic| local_leaf) => `(tactic| with_reducible exact Local.sortCarry _ _ _ _ _)
theorem Local.sortLoop (lt : V → V → Bool) (s carry : Ptr) (tmp : List Ptr) (fill : Nat) :
    Local (sortLoop lt s carry tmp fill : M (W V) Nat) := by
  revert fill
  refine LL.sortLoop.fixpoint_induct lt s carry tmp _ Local.admissible1 ?_
  intro f hf i
  exact .bind (begin_ _) fun _ => .bind (begin_ _) fun _ => .bind (spliceOne _ _) fun _ =>
    .bind (sortCarry _ _ _ _ _) fun _ => .bind (arrAt _ _) fun _ => .bind (swap _ _) fun _ =>
    .bind (empty _) fun _ => .ite (.pure _) (hf _)
macro_rules | `(tactic| local_leaf) => `(tactic| with_reducible exact Local.sortLoop _ _ _ _ _)
theorem Local.sortMerge (lt : V → V → Bool) (tmp : List Ptr) (fill i : Nat) :
    Local (sortMerge lt tmp fill i : M (W V) Unit) := by
  revert i
  refine LL.sortMerge.fixpoint_induct lt tmp fill _ Local.admissible1 ?_
  intro f hf i
  exact .ite (.bind (arrAt _ _) fun _ => .bind (arrAt _ _) fun _ => .bind (merge _ _ _) fun _ => hf _) (.pure _)
macro_rules | `(tactic| local_leaf) => `(tactic| with_reducible exact Local.sortMerge _ _ _ _)
theorem Local.sort (lt : V → V → Bool) (s : Ptr) : Local (sort lt s : M (W V) Unit) :=
  .bind (getNext _) fun _ => .ite (.bind (getNext _) fun _ => .bind (getNext _) fun _ => .ite
    (.bind (newList _) fun _ => .bind (newLists _) fun _ => .bind (sortLoop _ _ _ _ _) fun _ =>
      .bind (sortMerge _ _ _ _) fun _ => .bind (arrAt _ _) fun _ => .bind (swap _ _) fun _ =>
      .bind (destroyLists _) fun _ => destroyList _) (.pure _)) (.pure _)
macro_rules | `(tactic| local_leaf) => `(tactic| with_reducible exact Local.sort _ _)
theorem Local.inject (a b : Ptr) : Local (inject a b : M (W V) Unit) := by unfold LL.inject; locally
macro_rules | `(tactic| local_leaf) => `(tactic| with_reducible exact Local.inject _ _)
theorem Local.createNode (s : Ptr) (v : V) : Local (createNode s v : M (W V) Ptr) := by unfold LL.createNode; locally
macro_rules | `(tactic| local_leaf) => `(tactic| with_reducible exact Local.createNode _ _)
theorem Local.emplace (s pos : Ptr) (v : V) : Local (emplace s pos v : M (W V) Ptr) := by unfold LL.emplace; locally
macro_rules | `(tactic| local_leaf) => `(tactic| with_reducible exact Local.emplace _ _ _)
theorem Local.decr (p : Ptr) : Local (decr p : M (W V) Ptr) := by unfold LL.decr; locally
macro_rules | `(tactic| local_leaf) => `(tactic| with_reducible exact Local.decr _)
theorem Local.insertN (s pos : Ptr) (v : V) (n : Nat) : Local (insertN s pos v n) := by
  induction n generalizing pos with
  | zero => exact .pure _
  | succ n ih => exact .bind (Local.emplace _ _ _) fun _ => .bind .hasErr fun _ => .ite (.pure _) (ih _)
macro_rules | `(tactic| local_leaf) => `(tactic| with_reducible exact Local.insertN _ _ _ _)
theorem Local.insertRange (s pos : Ptr) (vs : List V) : Local (insertRange s pos vs) := by
  induction vs generalizing pos with
  | nil => exact .pure _
  | cons v vs ih => exact .bind (Local.emplace _ _ _) fun _ => .bind .hasErr fun _ => .ite (.pure _) (ih _)
macro_rules | `(tactic| local_leaf) => `(tactic| with_reducible exact Local.insertRange _ _ _)
theorem Local.pushBack (s : Ptr) (v : V) : Local (pushBack s v : M (W V) Unit) := by unfold LL.pushBack; locally
macro_rules | `(tactic| local_leaf) => `(tactic| with_reducible exact Local.pushBack _ _)
theorem Local.pushFront (s : Ptr) (v : V) : Local (pushFront s v : M (W V) Unit) := by unfold LL.pushFront; locally
macro_rules | `(tactic| local_leaf) => `(tactic| with_reducible exact Local.pushFront _ _)
theorem Local.popBack (s : Ptr) : Local (popBack s : M (W V) Unit) := by unfold LL.popBack; locally
macro_rules | `(tactic| local_leaf) => `(tactic| with_reducible exact Local.popBack _)
theorem Local.popFront (s : Ptr) : Local (popFront s : M (W V) Unit) := by unfold LL.popFront; locally
macro_rules | `(tactic| local_leaf) => `(tactic| with_reducible exact Local.popFront _)
theorem Local.assignLoop (s : Ptr) (v : V) (n : Nat) : Local (assignLoop s v n) := by
  induction n with
  | zero => exact .pure _
  | succ n ih => unfold LL.assignLoop; locally
macro_rules | `(tactic| local_leaf) => `(tactic| with_reducible exact Local.assignLoop _ _ _)
theorem Local.assignValsLoop (s : Ptr) (vs : List V) : Local (assignValsLoop s vs) := by
  induction vs with
  | nil => exact .pure _
  | cons v vs ih => unfold LL.assignValsLoop; locally
macro_rules | `(tactic| local_leaf) => `(tactic| with_reducible exact Local.assignValsLoop _ _)
theorem Local.assignItLoop (s f l : Ptr) : Local (assignItLoop s f l : M (W V) Unit) := by
  revert f
  refine LL.assignItLoop.fixpoint_induct s l _ Local.admissible1 ?_
  intro g hg f
  repeat' first
    | with_reducible exact hg _
    | local_leaf
    | with_reducible apply Nestl.Local.bind
    | with_reducible apply Nestl.Local.ite
    | intro _
macro_rules | `(tactic| local_leaf) => `(tactic| with_reducible exact Local.assignItLoop _ _ _)
theorem Local.assignN (s : Ptr) (n : Nat) (v : V) : Local (assignN s n v : M (W V) Unit) := by unfold LL.assignN; locally
macro_rules | `(tactic| local_leaf) => `(tactic| with_reducible exact Local.assignN _ _ _)
theorem Local.assignVals (s : Ptr) (vs : List V) : Local (assignVals s vs : M (W V) Unit) := by unfold LL.assignVals; locally
macro_rules | `(tactic| local_leaf) => `(tactic| with_reducible exact Local.assignVals _ _)
theorem Local.assignIt (s f l : Ptr) : Local (assignIt s f l : M (W V) Unit) := by unfold LL.assignIt; locally
macro_rules | `(tactic| local_leaf) => `(tactic| with_reducible exact Local.assignIt _ _ _)
theorem Local.copyNothrow (s t : Ptr) : Local (copyNothrow s t : M (W V) Unit) := by unfold LL.copyNothrow; locally
macro_rules | `(tactic| local_leaf) => `(tactic| with_reducible exact Local.copyNothrow _ _)

theorem Local.exec (c : LC.Call V) : Local (LC.exec c) := by
  cases c <;> unfold LC.exec <;> locally

end Nestl.LL
