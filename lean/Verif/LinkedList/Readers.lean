import Verif.LinkedList.Client
import Verif.ReadOnly
set_option autoImplicit false
/-
Operations of the list that only read.
-/
namespace Nestl.ReadOnly.LL
open Lean.Order
open Nestl.LL (W)
variable {V : Type}

theorem getNext (p : Ptr) : ReadOnly (Nestl.LL.getNext p : M (W V) Ptr) := by unfold Nestl.LL.getNext; reading
macro_rules | `(tactic| reader_leaf) => `(tactic| with_reducible exact Nestl.ReadOnly.LL.getNext _)
theorem getPrev (p : Ptr) : ReadOnly (Nestl.LL.getPrev p : M (W V) Ptr) := by unfold Nestl.LL.getPrev; reading
macro_rules | `(tactic| reader_leaf) => `(tactic| with_reducible exact Nestl.ReadOnly.LL.getPrev _)
theorem checkNode (p : Ptr) : ReadOnly (Nestl.LL.checkNode p : M (W V) Unit) := by unfold Nestl.LL.checkNode; reading
macro_rules | `(tactic| reader_leaf) => `(tactic| with_reducible exact Nestl.ReadOnly.LL.checkNode _)
theorem deref (p : Ptr) : ReadOnly (Nestl.LL.deref p : M (W V) V) := by unfold Nestl.LL.deref; reading
macro_rules | `(tactic| reader_leaf) => `(tactic| with_reducible exact Nestl.ReadOnly.LL.deref _)
theorem incr (p : Ptr) : ReadOnly (Nestl.LL.incr p : M (W V) Ptr) := by unfold Nestl.LL.incr; reading
macro_rules | `(tactic| reader_leaf) => `(tactic| with_reducible exact Nestl.ReadOnly.LL.incr _)
theorem decr (p : Ptr) : ReadOnly (Nestl.LL.decr p : M (W V) Ptr) := by unfold Nestl.LL.decr; reading
macro_rules | `(tactic| reader_leaf) => `(tactic| with_reducible exact Nestl.ReadOnly.LL.decr _)
theorem itEq (a b : Ptr) : ReadOnly (Nestl.LL.itEq a b : M (W V) Bool) := by unfold Nestl.LL.itEq; reading
macro_rules | `(tactic| reader_leaf) => `(tactic| with_reducible exact Nestl.ReadOnly.LL.itEq _ _)
theorem begin_ (s : Ptr) : ReadOnly (Nestl.LL.begin_ s : M (W V) Ptr) := by unfold Nestl.LL.begin_; reading
macro_rules | `(tactic| reader_leaf) => `(tactic| with_reducible exact Nestl.ReadOnly.LL.begin_ _)
theorem end_ (s : Ptr) : ReadOnly (Nestl.LL.end_ s : M (W V) Ptr) := by unfold Nestl.LL.end_; reading
macro_rules | `(tactic| reader_leaf) => `(tactic| with_reducible exact Nestl.ReadOnly.LL.end_ _)
theorem empty (s : Ptr) : ReadOnly (Nestl.LL.empty s : M (W V) Bool) := by unfold Nestl.LL.empty; reading
macro_rules | `(tactic| reader_leaf) => `(tactic| with_reducible exact Nestl.ReadOnly.LL.empty _)
theorem distance (first last : Ptr) : ReadOnly (Nestl.LL.distance first last : M (W V) Nat) := by
  revert first
  refine Nestl.LL.distance.fixpoint_induct last _ ReadOnly.admissible1 ?_
  intro f hf first
  repeat' first
    | with_reducible exact hf _
    | reader_leaf
    | with_reducible apply Nestl.ReadOnly.bind
    | with_reducible apply Nestl.ReadOnly.ite
    | with_reducible (split <;> skip)
    | intro _
macro_rules | `(tactic| reader_leaf) => `(tactic| with_reducible exact Nestl.ReadOnly.LL.distance _ _)
theorem size (s : Ptr) : ReadOnly (Nestl.LL.size s : M (W V) Nat) := by unfold Nestl.LL.size; reading
macro_rules | `(tactic| reader_leaf) => `(tactic| with_reducible exact Nestl.ReadOnly.LL.size _)
theorem front (s : Ptr) : ReadOnly (Nestl.LL.front s : M (W V) V) := by unfold Nestl.LL.front; reading
macro_rules | `(tactic| reader_leaf) => `(tactic| with_reducible exact Nestl.ReadOnly.LL.front _)
theorem back (s : Ptr) : ReadOnly (Nestl.LL.back s : M (W V) V) := by unfold Nestl.LL.back; reading
macro_rules | `(tactic| reader_leaf) => `(tactic| with_reducible exact Nestl.ReadOnly.LL.back _)
theorem eqLoop (eq : V → V → Bool) (l lEnd r : Ptr) : ReadOnly (Nestl.LL.eqLoop eq l lEnd r : M (W V) Bool) := by
  revert l r
  refine Nestl.LL.eqLoop.fixpoint_induct eq lEnd _ ReadOnly.admissible2 ?_
  intro f hf l r
  repeat' first
    | with_reducible exact hf _ _
    | reader_leaf
    | with_reducible apply Nestl.ReadOnly.bind
    | with_reducible apply Nestl.ReadOnly.ite
    | with_reducible (split <;> skip)
    | intro _
macro_rules | `(tactic| reader_leaf) => `(tactic| with_reducible exact Nestl.ReadOnly.LL.eqLoop _ _ _ _)
theorem equal (eq : V → V → Bool) (l r : Ptr) : ReadOnly (Nestl.LL.equal eq l r : M (W V) Bool) := by unfold Nestl.LL.equal; reading
macro_rules | `(tactic| reader_leaf) => `(tactic| with_reducible exact Nestl.ReadOnly.LL.equal _ _ _)

end Nestl.ReadOnly.LL

namespace Nestl.ReadOnly.LC
open Lean.Order
open Nestl.LL (W)
variable {V : Type}

theorem walkFrom (it last : Ptr) : ReadOnly (Nestl.LC.walkFrom it last : M (W V) (List (Ptr × V))) := by
  revert it
  refine Nestl.LC.walkFrom.fixpoint_induct last _ ReadOnly.admissible1 ?_
  intro f hf it
  repeat' first
    | with_reducible exact hf _
    | reader_leaf
    | with_reducible apply Nestl.ReadOnly.bind
    | with_reducible apply Nestl.ReadOnly.ite
    | with_reducible (split <;> skip)
    | intro _
macro_rules | `(tactic| reader_leaf) => `(tactic| with_reducible exact Nestl.ReadOnly.LC.walkFrom _ _)
theorem walk (s : Ptr) : ReadOnly (Nestl.LC.walk s : M (W V) (List (Ptr × V))) := by unfold Nestl.LC.walk; reading
macro_rules | `(tactic| reader_leaf) => `(tactic| with_reducible exact Nestl.ReadOnly.LC.walk _)
theorem walkBackFrom (it first : Ptr) : ReadOnly (Nestl.LC.walkBackFrom it first : M (W V) (List (Ptr × V))) := by
  revert it
  refine Nestl.LC.walkBackFrom.fixpoint_induct first _ ReadOnly.admissible1 ?_
  intro f hf it
  repeat' first
    | with_reducible exact hf _
    | reader_leaf
    | with_reducible apply Nestl.ReadOnly.bind
    | with_reducible apply Nestl.ReadOnly.ite
    | with_reducible (split <;> skip)
    | intro _
macro_rules | `(tactic| reader_leaf) => `(tactic| with_reducible exact Nestl.ReadOnly.LC.walkBackFrom _ _)
theorem walkBack (s : Ptr) : ReadOnly (Nestl.LC.walkBack s : M (W V) (List (Ptr × V))) := by unfold Nestl.LC.walkBack; reading
macro_rules | `(tactic| reader_leaf) => `(tactic| with_reducible exact Nestl.ReadOnly.LC.walkBack _)
theorem getAlloc (s : Ptr) : ReadOnly (Nestl.LC.getAlloc s : M (W V) Nat) := by unfold Nestl.LC.getAlloc; reading
macro_rules | `(tactic| reader_leaf) => `(tactic| with_reducible exact Nestl.ReadOnly.LC.getAlloc _)

end Nestl.ReadOnly.LC
