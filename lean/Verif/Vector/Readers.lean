import Verif.Vector.Client
import Verif.ReadOnly
set_option autoImplicit false
/-
Operations of the vector that only read.
-/
namespace Nestl.ReadOnly.Vec
open Nestl.Vec (W)
variable {V : Type}

theorem rdObj (s : Ptr) : ReadOnly (Nestl.Vec.rdObj s : M (W V) (Nestl.Vec.Obj)) := by unfold Nestl.Vec.rdObj; reading
macro_rules | `(tactic| reader_leaf) => `(tactic| with_reducible exact Nestl.ReadOnly.Vec.rdObj _)
theorem rdBlk (p : Ptr) : ReadOnly (Nestl.Vec.rdBlk p : M (W V) (Nestl.Vec.Blk V)) := by unfold Nestl.Vec.rdBlk; reading
macro_rules | `(tactic| reader_leaf) => `(tactic| with_reducible exact Nestl.ReadOnly.Vec.rdBlk _)
theorem slotRd (p : Ptr) (i : Nat) : ReadOnly (Nestl.Vec.slotRd p i : M (W V) V) := by unfold Nestl.Vec.slotRd; reading
macro_rules | `(tactic| reader_leaf) => `(tactic| with_reducible exact Nestl.ReadOnly.Vec.slotRd _ _)
theorem size (s : Ptr) : ReadOnly (Nestl.Vec.size s : M (W V) Nat) := by unfold Nestl.Vec.size; reading
macro_rules | `(tactic| reader_leaf) => `(tactic| with_reducible exact Nestl.ReadOnly.Vec.size _)
theorem capacity (s : Ptr) : ReadOnly (Nestl.Vec.capacity s : M (W V) Nat) := by unfold Nestl.Vec.capacity; reading
macro_rules | `(tactic| reader_leaf) => `(tactic| with_reducible exact Nestl.ReadOnly.Vec.capacity _)
theorem empty (s : Ptr) : ReadOnly (Nestl.Vec.empty s : M (W V) Bool) := by unfold Nestl.Vec.empty; reading
macro_rules | `(tactic| reader_leaf) => `(tactic| with_reducible exact Nestl.ReadOnly.Vec.empty _)
theorem getAlloc (s : Ptr) : ReadOnly (Nestl.Vec.getAlloc s : M (W V) Nat) := by unfold Nestl.Vec.getAlloc; reading
macro_rules | `(tactic| reader_leaf) => `(tactic| with_reducible exact Nestl.ReadOnly.Vec.getAlloc _)
theorem begin_ (s : Ptr) : ReadOnly (Nestl.Vec.begin_ s : M (W V) Ptr) := by unfold Nestl.Vec.begin_; reading
macro_rules | `(tactic| reader_leaf) => `(tactic| with_reducible exact Nestl.ReadOnly.Vec.begin_ _)
theorem data (s : Ptr) : ReadOnly (Nestl.Vec.data s : M (W V) Ptr) := by unfold Nestl.Vec.data; reading
macro_rules | `(tactic| reader_leaf) => `(tactic| with_reducible exact Nestl.ReadOnly.Vec.data _)
theorem at_ (s : Ptr) (i : Nat) : ReadOnly (Nestl.Vec.at_ s i : M (W V) V) := by unfold Nestl.Vec.at_; reading
macro_rules | `(tactic| reader_leaf) => `(tactic| with_reducible exact Nestl.ReadOnly.Vec.at_ _ _)
theorem front (s : Ptr) : ReadOnly (Nestl.Vec.front s : M (W V) V) := by unfold Nestl.Vec.front; reading
macro_rules | `(tactic| reader_leaf) => `(tactic| with_reducible exact Nestl.ReadOnly.Vec.front _)
theorem back (s : Ptr) : ReadOnly (Nestl.Vec.back s : M (W V) V) := by unfold Nestl.Vec.back; reading
macro_rules | `(tactic| reader_leaf) => `(tactic| with_reducible exact Nestl.ReadOnly.Vec.back _)
theorem eqLoop (eq : V → V → Bool) (p q : Ptr) (i n : Nat) : ReadOnly (Nestl.Vec.eqLoop eq p q i n : M (W V) Bool) := by
  induction n generalizing i with
  | zero => unfold Nestl.Vec.eqLoop; reading
  | succ n ih =>
    unfold Nestl.Vec.eqLoop
    repeat' first
      | with_reducible exact ih _
      | reader_leaf
      | with_reducible apply Nestl.ReadOnly.bind
      | with_reducible apply Nestl.ReadOnly.ite
      | intro _
macro_rules | `(tactic| reader_leaf) => `(tactic| with_reducible exact Nestl.ReadOnly.Vec.eqLoop _ _ _ _ _)
theorem equal (eq : V → V → Bool) (l r : Ptr) : ReadOnly (Nestl.Vec.equal eq l r : M (W V) Bool) := by unfold Nestl.Vec.equal; reading
macro_rules | `(tactic| reader_leaf) => `(tactic| with_reducible exact Nestl.ReadOnly.Vec.equal _ _ _)

end Nestl.ReadOnly.Vec

namespace Nestl.ReadOnly.VC
open Nestl.Vec (W)
variable {V : Type}

theorem walkFrom (s : Ptr) (i n : Nat) : ReadOnly (Nestl.VC.walkFrom s i n : M (W V) (List V)) := by
  induction n generalizing i with
  | zero => unfold Nestl.VC.walkFrom; reading
  | succ n ih =>
    unfold Nestl.VC.walkFrom
    repeat' first
      | with_reducible exact ih _
      | reader_leaf
      | with_reducible apply Nestl.ReadOnly.bind
      | with_reducible apply Nestl.ReadOnly.ite
      | intro _
macro_rules | `(tactic| reader_leaf) => `(tactic| with_reducible exact Nestl.ReadOnly.VC.walkFrom _ _ _)
theorem walk (s : Ptr) : ReadOnly (Nestl.VC.walk s : M (W V) (List V)) := by unfold Nestl.VC.walk; reading
macro_rules | `(tactic| reader_leaf) => `(tactic| with_reducible exact Nestl.ReadOnly.VC.walk _)
theorem iterateFrom (p : Ptr) (i n : Nat) : ReadOnly (Nestl.VC.iterateFrom p i n : M (W V) (List V)) := by
  induction n generalizing i with
  | zero => unfold Nestl.VC.iterateFrom; reading
  | succ n ih =>
    unfold Nestl.VC.iterateFrom
    repeat' first
      | with_reducible exact ih _
      | reader_leaf
      | with_reducible apply Nestl.ReadOnly.bind
      | with_reducible apply Nestl.ReadOnly.ite
      | intro _
macro_rules | `(tactic| reader_leaf) => `(tactic| with_reducible exact Nestl.ReadOnly.VC.iterateFrom _ _ _)
theorem iterateBackFrom (p : Ptr) (n : Nat) : ReadOnly (Nestl.VC.iterateBackFrom p n : M (W V) (List V)) := by
  induction n with
  | zero => unfold Nestl.VC.iterateBackFrom; reading
  | succ n ih =>
    unfold Nestl.VC.iterateBackFrom
    reading
macro_rules | `(tactic| reader_leaf) => `(tactic| with_reducible exact Nestl.ReadOnly.VC.iterateBackFrom _ _)
theorem iterateBack (s : Ptr) : ReadOnly (Nestl.VC.iterateBack s : M (W V) (List V)) := by unfold Nestl.VC.iterateBack; reading
macro_rules | `(tactic| reader_leaf) => `(tactic| with_reducible exact Nestl.ReadOnly.VC.iterateBack _)
theorem iterate (s : Ptr) : ReadOnly (Nestl.VC.iterate s : M (W V) (List V)) := by unfold Nestl.VC.iterate; reading
macro_rules | `(tactic| reader_leaf) => `(tactic| with_reducible exact Nestl.ReadOnly.VC.iterate _)

end Nestl.ReadOnly.VC
