import Verif.LinkedList.Model
import Verif.Mute
set_option autoImplicit false
/-
Operations of the list that call no comparator.
-/
namespace Nestl
open Lean.Order

namespace LL
variable {V : Type}

theorem Mute.getNext (p : Ptr) : Mute (getNext p : M (W V) Ptr) := .bind (.rd p) fun _ => .pure _
theorem Mute.getPrev (p : Ptr) : Mute (getPrev p : M (W V) Ptr) := .bind (.rd p) fun _ => .pure _
theorem Mute.setNext (p q : Ptr) : Mute (setNext p q : M (W V) Unit) := .modCell _ _
theorem Mute.setPrev (p q : Ptr) : Mute (setPrev p q : M (W V) Unit) := .modCell _ _

theorem Mute.checkNode (p : Ptr) : Mute (checkNode p : M (W V) Unit) :=
  .bind (.assertM _) fun _ => .bind (getPrev _) fun _ => .bind (.assertM _) fun _ => .bind (getNext _) fun _ =>
    .bind (.assertM _) fun _ => .bind (getPrev _) fun _ => .bind (getNext _) fun _ => .bind (.assertM _) fun _ =>
    .bind (getNext _) fun _ => .bind (getPrev _) fun _ => .assertM _

/-- Follows the structure of a program. -/
macro "muted" : tactic => `(tactic|
  repeat' first
    | with_reducible assumption
    | with_reducible exact Nestl.Mute.pure _
    | with_reducible exact Nestl.Mute.fault _
    | with_reducible exact Nestl.Mute.rd _
    | with_reducible exact Nestl.Mute.modCell _ _
    | with_reducible exact Nestl.Mute.assertM _
    | with_reducible exact Nestl.Mute.hasErr
    | with_reducible exact Nestl.Mute.tryCtor
    | with_reducible exact Nestl.Mute.allocCell _
    | with_reducible exact Nestl.Mute.newObj _
    | with_reducible exact Nestl.Mute.dropObj _
    | with_reducible exact Nestl.Mute.freeCell _ _
    | with_reducible exact Mute.getNext _
    | with_reducible exact Mute.getPrev _
    | with_reducible exact Mute.setNext _ _
    | with_reducible exact Mute.setPrev _ _
    | with_reducible exact Mute.checkNode _
    | with_reducible apply Nestl.Mute.bind
    | with_reducible apply Nestl.Mute.ite
    | with_reducible (split <;> skip)
    | intro _)

theorem Mute.initEmpty (p : Ptr) : Mute (initEmpty p : M (W V) Unit) := by unfold LL.initEmpty; muted
theorem Mute.transferNodes (a b c : Ptr) : Mute (transferNodes a b c : M (W V) Unit) := by
  unfold LL.transferNodes; muted
theorem Mute.transfer (a b c : Ptr) : Mute (transfer a b c : M (W V) Unit) :=
  .bind (checkNode a) fun _ => .bind (checkNode b) fun _ => .bind (checkNode c) fun _ => transferNodes a b c
theorem Mute.swapNodes (a b : Ptr) : Mute (swapNodes a b : M (W V) Unit) := by unfold LL.swapNodes; muted
theorem Mute.swap (a b : Ptr) : Mute (swap a b : M (W V) Unit) := Mute.swapNodes b a
theorem Mute.deref (p : Ptr) : Mute (deref p : M (W V) V) := by unfold LL.deref; muted
theorem Mute.incr (p : Ptr) : Mute (incr p : M (W V) Ptr) := by unfold LL.incr; muted
theorem Mute.itEq (p q : Ptr) : Mute (itEq p q : M (W V) Bool) := by unfold LL.itEq; muted
theorem Mute.begin_ (p : Ptr) : Mute (begin_ p : M (W V) Ptr) := by unfold LL.begin_; muted
theorem Mute.end_ (p : Ptr) : Mute (end_ p : M (W V) Ptr) := by unfold LL.end_; muted
theorem Mute.empty (p : Ptr) : Mute (empty p : M (W V) Bool) := by unfold LL.empty; muted
theorem Mute.newList (a : Nat) : Mute (newList a : M (W V) Ptr) :=
  .bind (.newObj _) fun s => .bind (initEmpty s) fun _ => .pure _
theorem Mute.destroyVal (p : Ptr) : Mute (destroyVal p : M (W V) Unit) := by unfold LL.destroyVal; muted
theorem Mute.putNode (s p : Ptr) : Mute (putNode s p : M (W V) Unit) := by unfold LL.putNode; muted
theorem Mute.arrAt (tmp : List Ptr) (i : Nat) : Mute (arrAt tmp i : M (W V) Ptr) := by unfold LL.arrAt; muted

theorem Mute.destroyLoop (s p : Ptr) : Mute (destroyLoop s p : M (W V) Unit) := by
  revert p
  refine LL.destroyLoop.fixpoint_induct s _ Mute.admissible1 ?_
  intro f hf p
  exact .ite (.bind (getNext p) fun q => .bind (destroyVal p) fun _ => .bind (putNode s p) fun _ => hf q) (.pure _)

theorem Mute.destroyContent (s : Ptr) : Mute (destroyContent s : M (W V) Unit) :=
  .bind (getNext s) fun q => destroyLoop s q
theorem Mute.destroyList (s : Ptr) : Mute (destroyList s : M (W V) Unit) :=
  .bind (destroyContent s) fun _ => .dropObj s
theorem Mute.clear (s : Ptr) : Mute (clear s : M (W V) Unit) := .bind (destroyContent s) fun _ => initEmpty s
theorem Mute.moveCtor (s : Ptr) : Mute (moveCtor s : M (W V) Ptr) :=
  .bind (.rd s) fun _ => .bind (newList _) fun _ => .bind (swapNodes _ _) fun _ => .pure _

theorem Mute.moveAssign (s t : Ptr) : Mute (moveAssign s t : M (W V) Unit) :=
  .bind (moveCtor _) fun _ => .bind (swap _ _) fun _ => destroyList _
theorem Mute.removeNode (p : Ptr) : Mute (removeNode p : M (W V) Unit) := by unfold LL.removeNode; muted
theorem Mute.erase (s p : Ptr) : Mute (erase s p : M (W V) Ptr) :=
  .bind (checkNode _) fun _ => .bind (getNext _) fun _ => .bind (checkNode _) fun _ => .bind (removeNode _) fun _ =>
    .bind (destroyVal _) fun _ => .bind (putNode _ _) fun _ => .pure _
theorem Mute.eraseRange (s f l : Ptr) : Mute (eraseRange s f l : M (W V) Ptr) := by
  revert f
  refine LL.eraseRange.fixpoint_induct s l _ Mute.admissible1 ?_
  intro g hg f
  exact .bind (itEq _ _) fun _ => .ite (.pure _) (.bind (erase _ _) fun _ => hg _)

theorem Mute.spliceAll (pos t : Ptr) : Mute (spliceAll pos t : M (W V) Unit) :=
  .bind (empty _) fun _ => .ite (.pure _) (.bind (begin_ _) fun _ => .bind (end_ _) fun _ => transfer _ _ _)
theorem Mute.spliceOne (pos it : Ptr) : Mute (spliceOne pos it : M (W V) Unit) :=
  .bind (incr _) fun _ => .bind (itEq _ _) fun _ => .ite (.pure _) (.bind (itEq _ _) fun _ => .ite (.pure _)
    (transfer _ _ _))
theorem Mute.spliceRange (pos f l : Ptr) : Mute (spliceRange pos f l : M (W V) Unit) :=
  .bind (itEq _ _) fun _ => .ite (.pure _) (transfer _ _ _)

theorem Mute.newLists (n : Nat) : Mute (newLists n : M (W V) (List Ptr)) := by
  induction n with
  | zero => exact .pure _
  | succ n ih => exact .bind (newList _) fun _ => .bind ih fun _ => .pure _
theorem Mute.destroyLists (l : List Ptr) : Mute (destroyLists l : M (W V) Unit) := by
  induction l with
  | nil => exact .pure _
  | cons p l ih => exact .bind ih fun _ => destroyList p

theorem Mute.createNode (s : Ptr) (v : V) : Mute (createNode s v) := by
  unfold LL.createNode
  refine .bind (.rd _) fun _ => .bind (.allocCell _) fun n => .bind .hasErr fun _ => .ite (.pure _) ?_
  have hq : Mute (do
      if (← hasErr) then
        LL.putNode s n
        pure Ptr.null
      else pure n : M (W V) Ptr) := .bind .hasErr fun _ => .ite (.bind (putNode _ _) fun _ => .pure _) (.pure _)
  refine .bind .tryCtor fun _ => .ite (.bind (.rd _) fun c => ?_) hq
  cases c.val
  · exact .bind (.modCell _ _) fun _ => hq
  · exact .bind (.fault _) fun _ => hq
theorem Mute.inject (a b : Ptr) : Mute (inject a b : M (W V) Unit) := by unfold LL.inject; muted
theorem Mute.emplace (s pos : Ptr) (v : V) : Mute (emplace s pos v) :=
  .bind (createNode _ _) fun _ => .bind .hasErr fun _ => .ite (end_ _) (.bind (initEmpty _) fun _ => .bind (checkNode _) fun _ =>
    .bind (inject _ _) fun _ => .bind (checkNode _) fun _ => .pure _)
theorem Mute.insertN (s pos : Ptr) (v : V) (n : Nat) : Mute (insertN s pos v n) := by
  induction n generalizing pos with
  | zero => exact .pure _
  | succ n ih => exact .bind (emplace _ _ _) fun _ => .bind .hasErr fun _ => .ite (.pure _) (ih _)
theorem Mute.insertRange (s pos : Ptr) (vs : List V) : Mute (insertRange s pos vs) := by
  induction vs generalizing pos with
  | nil => exact .pure _
  | cons v vs ih => exact .bind (emplace _ _ _) fun _ => .bind .hasErr fun _ => .ite (.pure _) (ih _)
theorem Mute.pushBack (s : Ptr) (v : V) : Mute (pushBack s v) := .bind (end_ _) fun _ => .bind (emplace _ _ _) fun _ => .pure _
theorem Mute.pushFront (s : Ptr) (v : V) : Mute (pushFront s v) :=
  .bind (begin_ _) fun _ => .bind (emplace _ _ _) fun _ => .pure _
theorem Mute.popBack (s : Ptr) : Mute (popBack s : M (W V) Unit) :=
  .bind (getPrev _) fun _ => .bind (checkNode _) fun _ => .bind (erase _ _) fun _ => .pure _
theorem Mute.popFront (s : Ptr) : Mute (popFront s : M (W V) Unit) :=
  .bind (begin_ _) fun _ => .bind (erase _ _) fun _ => .pure _
theorem Mute.assignLoop (s : Ptr) (v : V) (n : Nat) : Mute (assignLoop s v n) := by
  induction n with
  | zero => exact .pure _
  | succ n ih => exact .bind (pushBack _ _) fun _ => .bind .hasErr fun _ => .ite (.pure _) ih
theorem Mute.assignValsLoop (s : Ptr) (vs : List V) : Mute (assignValsLoop s vs) := by
  induction vs with
  | nil => exact .pure _
  | cons v vs ih => exact .bind (pushBack _ _) fun _ => .bind .hasErr fun _ => .ite (.pure _) ih
theorem Mute.assignItLoop (s f l : Ptr) : Mute (assignItLoop s f l : M (W V) Unit) := by
  revert f
  refine LL.assignItLoop.fixpoint_induct s l _ Mute.admissible1 ?_
  intro g hg f
  exact .bind (itEq _ _) fun _ => .ite (.pure _) (.bind (deref _) fun _ =>
    .bind (pushBack _ _) fun _ => .bind .hasErr fun _ => .ite (.pure _) (.bind (incr _) fun _ => hg _))
theorem Mute.assignN (s : Ptr) (n : Nat) (v : V) : Mute (assignN s n v) :=
  .bind (newList _) fun _ => .bind (swap _ _) fun _ => .bind (assignLoop _ _ _) fun _ => destroyList _
theorem Mute.assignVals (s : Ptr) (vs : List V) : Mute (assignVals s vs) :=
  .bind (newList _) fun _ => .bind (swap _ _) fun _ => .bind (assignValsLoop _ _) fun _ => destroyList _
theorem Mute.assignIt (s f l : Ptr) : Mute (assignIt s f l : M (W V) Unit) :=
  .bind (newList _) fun _ => .bind (swap _ _) fun _ => .bind (assignItLoop _ _ _) fun _ => destroyList _
theorem Mute.copyNothrow (s t : Ptr) : Mute (copyNothrow s t : M (W V) Unit) :=
  .bind (begin_ _) fun _ => .bind (end_ _) fun _ => assignIt _ _ _

end LL
end Nestl
