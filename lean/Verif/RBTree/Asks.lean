import Verif.RBTree.Keep
import Verif.RBTree.Told
set_option autoImplicit false
/-
How many requests and constructions the operations of the tree make.
-/
namespace Nestl.RB
open Lean.Order
variable {K : Type}

theorem Costs.createNode (hdr : Ptr) (v : K) : Costs 1 1 (createNode hdr v) := by
  unfold RB.createNode constructVal
  refine .bindQ (.rd _) fun _ => .check (i := 1) (j := 0) (i' := 0) (j' := 1) (.allocCell _) (fun _ => .pure _) fun n => ?_
  refine .then ?_ fun _ => by quietly
  exact .then .tryCtor fun _ => by quietly

theorem Costs.insert_ (lt : K → K → Bool) (hdr x p : Ptr) (v : K) : Costs 1 1 (insert_ lt hdr x p v) := by
  unfold RB.insert_
  refine .bindQ (by quietly) fun _ => .check (i := 1) (j := 1) (i' := 0) (j' := 0) (Costs.createNode _ _) (fun _ => .pure _)
    fun _ => Quiet.costs (by quietly)

theorem Costs.emplaceUnique (lt : K → K → Bool) (hdr : Ptr) (v : K) : Costs 1 1 (emplaceUnique lt hdr v) := by
  unfold RB.emplaceUnique
  exact .check (i := 1) (j := 1) (i' := 0) (j' := 0) (Costs.createNode _ _) (fun _ => .pure _) fun _ => Quiet.costs (by quietly)

theorem Costs.emplaceHintUnique (lt : K → K → Bool) (hdr pos : Ptr) (v : K) : Costs 1 1 (emplaceHintUnique lt hdr pos v) := by
  unfold RB.emplaceHintUnique
  exact .check (i := 1) (j := 1) (i' := 0) (j' := 0) (Costs.createNode _ _) (fun _ => .pure _) fun _ => Quiet.costs (by quietly)

theorem Costs.insertLower (lt : K → K → Bool) (hdr p : Ptr) (v : K) : Costs 1 1 (insertLower lt hdr p v) := by
  unfold RB.insertLower
  refine .bindQ (by quietly) fun _ => .check (i := 1) (j := 1) (i' := 0) (j' := 0) (Costs.createNode _ _) (fun _ => .pure _)
    fun _ => Quiet.costs (by quietly)

theorem Costs.insertEqualLower (lt : K → K → Bool) (hdr : Ptr) (v : K) : Costs 1 1 (insertEqualLower lt hdr v) := by
  unfold RB.insertEqualLower
  exact .bindQ (by quietly) fun _ => .bindQ (by quietly) fun _ => Costs.insertLower _ _ _ _

theorem Costs.emplaceEqual (lt : K → K → Bool) (hdr : Ptr) (v : K) : Costs 1 1 (emplaceEqual lt hdr v) := by
  unfold RB.emplaceEqual
  exact .check (i := 1) (j := 1) (i' := 0) (j' := 0) (Costs.createNode _ _) (fun _ => .pure _) fun _ => Quiet.costs (by quietly)

theorem Costs.emplaceHintEqual (lt : K → K → Bool) (hdr pos : Ptr) (v : K) : Costs 1 1 (emplaceHintEqual lt hdr pos v) := by
  unfold RB.emplaceHintEqual
  exact .check (i := 1) (j := 1) (i' := 0) (j' := 0) (Costs.createNode _ _) (fun _ => .pure _) fun _ => Quiet.costs (by quietly)

/-! ### What is kept -/

variable {e : Prop}

theorem Grows.createNode (hdr : Ptr) (v : K) : Grows e (createNode hdr v) := by
  refine .even (i := 1) ?_ (Costs.createNode _ _)
  unfold RB.createNode constructVal
  refine .bindK (.rd _) fun _ => .check (.allocCell _) (fun _ => .pure _) fun n => ?_
  refine .check ?_ (fun _ => .bind (Quiet.putNode _ _) fun _ => .pure _) fun _ => (Keep.pure _).grows
  exact .then .tryCtor fun _ => by keeps

theorem Grows.insert_ (lt : K → K → Bool) (hdr x p : Ptr) (v : K) : Grows e (insert_ lt hdr x p v) := by
  unfold RB.insert_
  exact .bindK (by keeps) fun _ => .check (Grows.createNode _ _) (fun _ => .pure _) fun _ => Keep.grows (by keeps)

theorem Grows.insertUnique (lt : K → K → Bool) (hdr : Ptr) (v : K) : Grows e (insertUnique lt hdr v) := by
  unfold RB.insertUnique
  exact .bindK (by keeps) fun _ => .ite (.then (Grows.insert_ _ _ _ _ _) fun _ => .pure _) (Keep.pure _).grows

theorem Grows.insertUniqueAt (lt : K → K → Bool) (hdr pos : Ptr) (v : K) : Grows e (insertUniqueAt lt hdr pos v) := by
  unfold RB.insertUniqueAt
  exact .bindK (by keeps) fun _ => .ite (Grows.insert_ _ _ _ _ _) (Keep.pure _).grows

theorem Grows.insertUniqueRange (lt : K → K → Bool) (hdr : Ptr) (vs : List K) : Grows e (insertUniqueRange lt hdr vs) := by
  induction vs with
  | nil => exact (Keep.pure _).grows
  | cons v vs ih => exact .check (Grows.insertUniqueAt _ _ _ _) (fun _ => .pure _) fun _ => ih

theorem Grows.cloneNode (hdr x : Ptr) : Grows e (cloneNode hdr x : M (W K) Ptr) := by
  unfold RB.cloneNode
  exact .bindK (by keeps) fun _ => .check (Grows.createNode _ _) (fun _ => .pure _) fun _ => Keep.grows (by keeps)

theorem Grows.mCopy (hdr x p : Ptr) : Grows e (mCopy hdr x p : M (W K) Ptr) := by
  revert x p
  refine RB.mCopy.fixpoint_induct (K := K) hdr (fun m => ∀ x p, Grows e (m x p)) (fun m => ∀ a b c, Grows e (m a b c))
    Grows.admissible2 Grows.admissible3 ?_ ?_
  · intro f g hf hg x p
    refine .check (Grows.cloneNode _ _) (fun _ => .pure _) fun top => ?_
    refine .bindK (Keep.setParent _ _) fun _ => .bindK (.rd _) fun _ => .ite ?_ (.bindK (.rd _) fun _ => hg _ _ _)
    refine .bindK (.rd _) fun _ => .bind (hf _ _) (fun _ => .bindK (Keep.setRight _ _) fun _ =>
      .checked (.bindK (.rd _) fun _ => hg _ _ _)) fun _ =>
      .bindQ (Quiet.setRight _ _) fun _ => .check (Quiet.stops (.bind (Quiet.mErase _ _) fun _ => .pure _))
  · intro f g hf hg top p x
    refine .ite ?_ (Keep.pure _).grows
    refine .check (Grows.cloneNode _ _) (fun _ => .bind (Quiet.mErase _ _) fun _ => .pure _) fun y => ?_
    refine .bindK (Keep.setLeft _ _) fun _ => .bindK (Keep.setParent _ _) fun _ => .bindK (.rd _) fun _ =>
      .ite ?_ (.bindK (.rd _) fun _ => hg _ _ _)
    refine .bindK (.rd _) fun _ => .bind (hf _ _) (fun _ => .bindK (Keep.setRight _ _) fun _ =>
      .checked (.bindK (.rd _) fun _ => hg _ _ _)) fun _ =>
      .bindQ (Quiet.setRight _ _) fun _ => .check (Quiet.stops (.bind (Quiet.mErase _ _) fun _ => .pure _))

end Nestl.RB
