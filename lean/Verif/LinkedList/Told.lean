import Verif.LinkedList.Quiet
import Verif.LinkedList.Client
import Verif.Told
set_option autoImplicit false
/-
How the operations of `list` report failures.
-/
namespace Nestl.LL
open Lean.Order
variable {V : Type} {B : Prop}

theorem Told.createNode (s : Ptr) (v : V) : Told B (createNode s v) := by
  unfold LL.createNode
  refine .bindQ (.rd _) fun _ => .check (.allocCell _) (fun _ => .pure _) fun n => ?_
  have hq : Quiet (do
      if (← hasErr) then
        putNode s n
        pure Ptr.null
      else pure n : M (W V) Ptr) := .bind .hasErr fun _ => .ite (.bind (Quiet.putNode _ _) fun _ => .pure _) (.pure _)
  refine .then .tryCtor fun _ => .ite (.bind (.rd _) fun c => ?_) (by quietly)
  cases c.val
  · exact .bind (.modCell _ _) fun _ => hq
  · quietly

theorem Quiet.inject (a b : Ptr) : Quiet (inject a b : M (W V) Unit) := by unfold LL.inject; quiet

theorem Told.emplace (s pos : Ptr) (v : V) : Told B (emplace s pos v) :=
  .check (Told.createNode _ _) (fun _ => Quiet.end_ _) fun _ => Quiet.told
    (.bind (Quiet.initEmpty _) fun _ => .bind (Quiet.checkNode _) fun _ => .bind (Quiet.inject _ _) fun _ =>
      .bind (Quiet.checkNode _) fun _ => .pure _)

theorem Told.insertN (s pos : Ptr) (v : V) (n : Nat) : Told B (insertN s pos v n) := by
  induction n generalizing pos with
  | zero => exact (Quiet.pure _).told
  | succ n ih => exact .check (Told.emplace _ _ _) (fun _ => .pure _) fun _ => ih _

theorem Told.insertRange (s pos : Ptr) (vs : List V) : Told B (insertRange s pos vs) := by
  induction vs generalizing pos with
  | nil => exact (Quiet.pure _).told
  | cons v vs ih => exact .check (Told.emplace _ _ _) (fun _ => .pure _) fun _ => ih _

theorem Told.pushBack (s : Ptr) (v : V) : Told B (pushBack s v) := by
  unfold LL.pushBack
  exact .bindQ (Quiet.end_ _) fun _ => .then (Told.emplace _ _ _) fun _ => .pure _
theorem Told.pushFront (s : Ptr) (v : V) : Told B (pushFront s v) := by
  unfold LL.pushFront
  exact .bindQ (Quiet.begin_ _) fun _ => .then (Told.emplace _ _ _) fun _ => .pure _

theorem Quiet.decr (p : Ptr) : Quiet (decr p : M (W V) Ptr) := by unfold LL.decr; quiet
theorem Quiet.popBack (s : Ptr) : Quiet (popBack s : M (W V) Unit) :=
  .bind (Quiet.getPrev _) fun _ => .bind (Quiet.checkNode _) fun _ => .bind (Quiet.erase _ _) fun _ => .pure _
theorem Quiet.popFront (s : Ptr) : Quiet (popFront s : M (W V) Unit) :=
  .bind (Quiet.begin_ _) fun _ => .bind (Quiet.erase _ _) fun _ => .pure _

theorem Told.assignLoop (s : Ptr) (v : V) (n : Nat) : Told B (assignLoop s v n) := by
  induction n with
  | zero => exact (Quiet.pure _).told
  | succ n ih => exact .check (Told.pushBack _ _) (fun _ => .pure _) fun _ => ih

theorem Told.assignValsLoop (s : Ptr) (vs : List V) : Told B (assignValsLoop s vs) := by
  induction vs with
  | nil => exact (Quiet.pure _).told
  | cons v vs ih => exact .check (Told.pushBack _ _) (fun _ => .pure _) fun _ => ih

theorem Told.assignItLoop (s f l : Ptr) : Told B (assignItLoop s f l : M (W V) Unit) := by
  revert f
  refine LL.assignItLoop.fixpoint_induct s l _ Told.admissible1 ?_
  intro g hg f
  exact .bindQ (Quiet.itEq _ _) fun _ => .ite (Quiet.pure _).told (.bindQ (Quiet.deref _) fun _ =>
    .check (Told.pushBack _ _) (fun _ => .pure _) fun _ => .bindQ (Quiet.incr _) fun _ => hg _)

theorem Told.assignN (s : Ptr) (n : Nat) (v : V) : Told B (assignN s n v) :=
  .bindQ (Quiet.newList _) fun _ => .bindQ (Quiet.swap _ _) fun _ => .then (Told.assignLoop _ _ _) fun _ =>
    Quiet.destroyList _
theorem Told.assignVals (s : Ptr) (vs : List V) : Told B (assignVals s vs) :=
  .bindQ (Quiet.newList _) fun _ => .bindQ (Quiet.swap _ _) fun _ => .then (Told.assignValsLoop _ _) fun _ =>
    Quiet.destroyList _
theorem Told.assignIt (s f l : Ptr) : Told B (assignIt s f l : M (W V) Unit) :=
  .bindQ (Quiet.newList _) fun _ => .bindQ (Quiet.swap _ _) fun _ => .then (Told.assignItLoop _ _ _) fun _ =>
    Quiet.destroyList _
theorem Told.copyNothrow (s t : Ptr) : Told B (copyNothrow s t : M (W V) Unit) :=
  .bindQ (Quiet.begin_ _) fun _ => .bindQ (Quiet.end_ _) fun _ => Told.assignIt _ _ _

theorem Told.exec (c : LC.Call V) : Told B (LC.exec c) := by
  cases c
  case create => exact Quiet.told (.bind (Quiet.newList _) fun _ => .pure _)
  case insert => exact .then (Told.emplace _ _ _) fun _ => .pure _
  case insertN => exact .then (Told.insertN _ _ _ _) fun _ => .pure _
  case insertRange => exact .then (Told.insertRange _ _ _) fun _ => .pure _
  case erase => exact Quiet.told (.bind (Quiet.erase _ _) fun _ => .pure _)
  case eraseRange => exact Quiet.told (.bind (Quiet.eraseRange _ _ _) fun _ => .pure _)
  case pushBack => exact .then (Told.pushBack _ _) fun _ => .pure _
  case pushFront => exact .then (Told.pushFront _ _) fun _ => .pure _
  case popBack => exact Quiet.told (.bind (Quiet.popBack _) fun _ => .pure _)
  case popFront => exact Quiet.told (.bind (Quiet.popFront _) fun _ => .pure _)
  case clear => exact Quiet.told (.bind (Quiet.clear _) fun _ => .pure _)
  case assignN => exact .then (Told.assignN _ _ _) fun _ => .pure _
  case assignVals => exact .then (Told.assignVals _ _) fun _ => .pure _
  case assignRange => exact .then (Told.assignIt _ _ _) fun _ => .pure _
  case copy => exact .then (Told.copyNothrow _ _) fun _ => .pure _
  case move => exact Quiet.told (.bind (Quiet.moveCtor _) fun _ => .pure _)
  case moveAssign => exact Quiet.told (.bind (Quiet.moveAssign _ _) fun _ => .pure _)
  case swap => exact Quiet.told (.bind (Quiet.swap _ _) fun _ => .pure _)
  case merge => exact Quiet.told (.bind (Quiet.merge _ _ _) fun _ => .pure _)
  case spliceAll => exact Quiet.told (.bind (Quiet.spliceAll _ _) fun _ => .pure _)
  case spliceOne => exact Quiet.told (.bind (Quiet.spliceOne _ _) fun _ => .pure _)
  case spliceRange => exact Quiet.told (.bind (Quiet.spliceRange _ _ _) fun _ => .pure _)
  case sort => exact Quiet.told (.bind (Quiet.sort _ _) fun _ => .pure _)
  case destroy => exact Quiet.told (.bind (Quiet.destroyList _) fun _ => .pure _)

end Nestl.LL
