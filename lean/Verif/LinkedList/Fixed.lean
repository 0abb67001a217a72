import Verif.LinkedList.Model
import Verif.Fixed
set_option autoImplicit false
/-
Operations of `list` that create no automatic objects.
-/
namespace Nestl
open Lean.Order

namespace LL
variable {V : Type}

theorem Fixed.getNext (p : Ptr) : Fixed (getNext p : M (W V) Ptr) := .bind (.rd p) fun _ => .pure _
theorem Fixed.getPrev (p : Ptr) : Fixed (getPrev p : M (W V) Ptr) := .bind (.rd p) fun _ => .pure _
theorem Fixed.setNext (p q : Ptr) : Fixed (setNext p q : M (W V) Unit) := .modCell _ _
theorem Fixed.setPrev (p q : Ptr) : Fixed (setPrev p q : M (W V) Unit) := .modCell _ _

theorem Fixed.checkNode (p : Ptr) : Fixed (checkNode p : M (W V) Unit) :=
  .bind (.assertM _) fun _ => .bind (getPrev _) fun _ => .bind (.assertM _) fun _ => .bind (getNext _) fun _ =>
    .bind (.assertM _) fun _ => .bind (getPrev _) fun _ => .bind (getNext _) fun _ => .bind (.assertM _) fun _ =>
    .bind (getNext _) fun _ => .bind (getPrev _) fun _ => .assertM _

macro_rules | `(tactic| fixed_leaf) => `(tactic| with_reducible exact Nestl.LL.Fixed.getNext _)
macro_rules | `(tactic| fixed_leaf) => `(tactic| with_reducible exact Nestl.LL.Fixed.getPrev _)
macro_rules | `(tactic| fixed_leaf) => `(tactic| with_reducible exact Nestl.LL.Fixed.setNext _ _)
macro_rules | `(tactic| fixed_leaf) => `(tactic| with_reducible exact Nestl.LL.Fixed.setPrev _ _)
macro_rules | `(tactic| fixed_leaf) => `(tactic| with_reducible exact Nestl.LL.Fixed.checkNode _)

theorem Fixed.initEmpty (p : Ptr) : Fixed (initEmpty p : M (W V) Unit) := by unfold LL.initEmpty; fixedly
theorem Fixed.transferNodes (a b c : Ptr) : Fixed (transferNodes a b c : M (W V) Unit) := by
  unfold LL.transferNodes; fixedly
theorem Fixed.transfer (a b c : Ptr) : Fixed (transfer a b c : M (W V) Unit) :=
  .bind (checkNode a) fun _ => .bind (checkNode b) fun _ => .bind (checkNode c) fun _ => transferNodes a b c
theorem Fixed.swapNodes (a b : Ptr) : Fixed (swapNodes a b : M (W V) Unit) := by unfold LL.swapNodes; fixedly
theorem Fixed.swap (a b : Ptr) : Fixed (swap a b : M (W V) Unit) := Fixed.swapNodes b a
theorem Fixed.deref (p : Ptr) : Fixed (deref p : M (W V) V) := by unfold LL.deref; fixedly
theorem Fixed.incr (p : Ptr) : Fixed (incr p : M (W V) Ptr) := by unfold LL.incr; fixedly
theorem Fixed.itEq (p q : Ptr) : Fixed (itEq p q : M (W V) Bool) := by unfold LL.itEq; fixedly
theorem Fixed.begin_ (p : Ptr) : Fixed (begin_ p : M (W V) Ptr) := by unfold LL.begin_; fixedly
theorem Fixed.end_ (p : Ptr) : Fixed (end_ p : M (W V) Ptr) := by unfold LL.end_; fixedly
theorem Fixed.empty (p : Ptr) : Fixed (empty p : M (W V) Bool) := by unfold LL.empty; fixedly
theorem Fixed.destroyVal (p : Ptr) : Fixed (destroyVal p : M (W V) Unit) := by unfold LL.destroyVal; fixedly
theorem Fixed.putNode (s p : Ptr) : Fixed (putNode s p : M (W V) Unit) := by unfold LL.putNode; fixedly
theorem Fixed.arrAt (tmp : List Ptr) (i : Nat) : Fixed (arrAt tmp i : M (W V) Ptr) := by unfold LL.arrAt; fixedly

theorem Fixed.destroyLoop (s p : Ptr) : Fixed (destroyLoop s p : M (W V) Unit) := by
  revert p
  refine LL.destroyLoop.fixpoint_induct s _ Fixed.admissible1 ?_
  intro f hf p
  exact .ite (.bind (getNext p) fun q => .bind (destroyVal p) fun _ => .bind (putNode s p) fun _ => hf q) (.pure _)

theorem Fixed.destroyContent (s : Ptr) : Fixed (destroyContent s : M (W V) Unit) :=
  .bind (getNext s) fun q => destroyLoop s q
theorem Fixed.destroyList (s : Ptr) : Fixed (destroyList s : M (W V) Unit) :=
  .bind (destroyContent s) fun _ => .dropObj s
theorem Fixed.clear (s : Ptr) : Fixed (clear s : M (W V) Unit) := .bind (destroyContent s) fun _ => initEmpty s

theorem Fixed.removeNode (p : Ptr) : Fixed (removeNode p : M (W V) Unit) := by unfold LL.removeNode; fixedly
theorem Fixed.erase (s p : Ptr) : Fixed (erase s p : M (W V) Ptr) :=
  .bind (checkNode _) fun _ => .bind (getNext _) fun _ => .bind (checkNode _) fun _ => .bind (removeNode _) fun _ =>
    .bind (destroyVal _) fun _ => .bind (putNode _ _) fun _ => .pure _
theorem Fixed.eraseRange (s f l : Ptr) : Fixed (eraseRange s f l : M (W V) Ptr) := by
  revert f
  refine LL.eraseRange.fixpoint_induct s l _ Fixed.admissible1 ?_
  intro g hg f
  exact .bind (itEq _ _) fun _ => .ite (.pure _) (.bind (erase _ _) fun _ => hg _)

theorem Fixed.mergeLoop (lt : V → V → Bool) (a b c d : Ptr) : Fixed (mergeLoop lt a b c d : M (W V) Ptr) := by
  revert a c
  refine LL.mergeLoop.fixpoint_induct lt b d _ Fixed.admissible2 ?_
  intro f hf a c
  exact .bind (itEq _ _) fun _ => .ite (.pure _) (.bind (itEq _ _) fun _ => .ite (.pure _)
    (.bind (deref _) fun _ => .bind (deref _) fun _ => .bind (.cmp _ _ _) fun _ => .ite
      (.bind (incr _) fun _ => .bind (transfer _ _ _) fun _ => hf _ _) (.bind (incr _) fun _ => hf _ _)))

theorem Fixed.merge (lt : V → V → Bool) (s t : Ptr) : Fixed (merge lt s t : M (W V) Unit) :=
  .bind (.assertM _) fun _ => .bind (begin_ _) fun _ => .bind (end_ _) fun _ => .bind (begin_ _) fun _ =>
    .bind (end_ _) fun _ => .bind (mergeLoop _ _ _ _ _) fun _ => .bind (itEq _ _) fun _ => .ite (.pure _) (transfer _ _ _)

theorem Fixed.spliceAll (pos t : Ptr) : Fixed (spliceAll pos t : M (W V) Unit) :=
  .bind (empty _) fun _ => .ite (.pure _) (.bind (begin_ _) fun _ => .bind (end_ _) fun _ => transfer _ _ _)
theorem Fixed.spliceOne (pos it : Ptr) : Fixed (spliceOne pos it : M (W V) Unit) :=
  .bind (incr _) fun _ => .bind (itEq _ _) fun _ => .ite (.pure _) (.bind (itEq _ _) fun _ => .ite (.pure _)
    (transfer _ _ _))
theorem Fixed.spliceRange (pos f l : Ptr) : Fixed (spliceRange pos f l : M (W V) Unit) :=
  .bind (itEq _ _) fun _ => .ite (.pure _) (transfer _ _ _)

end LL
end Nestl
