import Verif.RBTree.Quiet
import Verif.Told
import Verif.Full.Client
set_option autoImplicit false
/-
How the operations of the tree report failures.
-/
namespace Nestl.RB
open Lean.Order
variable {K : Type} {B : Prop}

theorem Told.createNode (hdr : Ptr) (v : K) : Told B (createNode hdr v) := by
  unfold RB.createNode constructVal; tells
macro_rules | `(tactic| told_leaf) => `(tactic| with_reducible exact Told.createNode _ _)
theorem Told.insert_ (lt : K → K → Bool) (hdr x p : Ptr) (v : K) : Told B (insert_ lt hdr x p v) := by
  unfold RB.insert_; tells
macro_rules | `(tactic| told_leaf) => `(tactic| with_reducible exact Told.insert_ _ _ _ _ _)
theorem Told.insertUnique (lt : K → K → Bool) (hdr : Ptr) (v : K) : Told B (insertUnique lt hdr v) := by
  unfold RB.insertUnique; tells
macro_rules | `(tactic| told_leaf) => `(tactic| with_reducible exact Told.insertUnique _ _ _)
theorem Told.insertUniqueAt (lt : K → K → Bool) (hdr pos : Ptr) (v : K) : Told B (insertUniqueAt lt hdr pos v) := by
  unfold RB.insertUniqueAt; tells
macro_rules | `(tactic| told_leaf) => `(tactic| with_reducible exact Told.insertUniqueAt _ _ _ _)
theorem Told.insertUniqueRange (lt : K → K → Bool) (hdr : Ptr) (vs : List K) : Told B (insertUniqueRange lt hdr vs) := by
  induction vs with
  | nil => exact (Quiet.pure _).told
  | cons v vs ih => unfold RB.insertUniqueRange; tells
theorem Told.emplaceUnique (lt : K → K → Bool) (hdr : Ptr) (v : K) : Told B (emplaceUnique lt hdr v) := by
  unfold RB.emplaceUnique; tells
macro_rules | `(tactic| told_leaf) => `(tactic| with_reducible exact Told.emplaceUnique _ _ _)
theorem Told.emplaceHintUnique (lt : K → K → Bool) (hdr pos : Ptr) (v : K) : Told B (emplaceHintUnique lt hdr pos v) := by
  unfold RB.emplaceHintUnique; tells
macro_rules | `(tactic| told_leaf) => `(tactic| with_reducible exact Told.emplaceHintUnique _ _ _ _)
theorem Told.insertLower (lt : K → K → Bool) (hdr p : Ptr) (v : K) : Told B (insertLower lt hdr p v) := by
  unfold RB.insertLower; tells
macro_rules | `(tactic| told_leaf) => `(tactic| with_reducible exact Told.insertLower _ _ _ _)
theorem Told.insertEqualLower (lt : K → K → Bool) (hdr : Ptr) (v : K) : Told B (insertEqualLower lt hdr v) := by
  unfold RB.insertEqualLower; tells
macro_rules | `(tactic| told_leaf) => `(tactic| with_reducible exact Told.insertEqualLower _ _ _)
theorem Told.emplaceEqual (lt : K → K → Bool) (hdr : Ptr) (v : K) : Told B (emplaceEqual lt hdr v) := by
  unfold RB.emplaceEqual; tells
macro_rules | `(tactic| told_leaf) => `(tactic| with_reducible exact Told.emplaceEqual _ _ _)
theorem Told.emplaceHintEqual (lt : K → K → Bool) (hdr pos : Ptr) (v : K) : Told B (emplaceHintEqual lt hdr pos v) := by
  unfold RB.emplaceHintEqual; tells
macro_rules | `(tactic| told_leaf) => `(tactic| with_reducible exact Told.emplaceHintEqual _ _ _ _)
theorem Told.cloneNode (hdr x : Ptr) : Told B (cloneNode hdr x : M (W K) Ptr) := by
  unfold RB.cloneNode; tells
macro_rules | `(tactic| told_leaf) => `(tactic| with_reducible exact Told.cloneNode _ _)

theorem Told.mCopy (hdr x p : Ptr) : Told B (mCopy hdr x p : M (W K) Ptr) := by
  revert x p
  refine RB.mCopy.fixpoint_induct (K := K) hdr (fun m => ∀ x p, Told B (m x p)) (fun m => ∀ a b c, Told B (m a b c))
    Told.admissible2 Told.admissible3 ?_ ?_
  · intro f g hf hg x p
    refine .check (Told.cloneNode _ _) (fun _ => .pure _) fun top => ?_
    refine .bindQ (Quiet.setParent _ _) fun _ => .bindQ (.rd _) fun _ => .ite ?_ (.bindQ (.rd _) fun _ => hg _ _ _)
    refine .bindQ (.rd _) fun _ => .bind (hf _ _) (fun _ => .bindQ (Quiet.setRight _ _) fun _ => .bindQ .hasErr fun _ =>
      .ite (Quiet.told (.bind (Quiet.mErase _ _) fun _ => .pure _)) (.bindQ (.rd _) fun _ => hg _ _ _)) fun _ =>
      .bindQ (Quiet.setRight _ _) fun _ => .check (Quiet.stops (.bind (Quiet.mErase _ _) fun _ => .pure _))
  · intro f g hf hg top p x
    refine .ite ?_ (Quiet.pure _).told
    refine .check (Told.cloneNode _ _) (fun _ => .bind (Quiet.mErase _ _) fun _ => .pure _) fun y => ?_
    refine .bindQ (Quiet.setLeft _ _) fun _ => .bindQ (Quiet.setParent _ _) fun _ => .bindQ (.rd _) fun _ =>
      .ite ?_ (.bindQ (.rd _) fun _ => hg _ _ _)
    refine .bindQ (.rd _) fun _ => .bind (hf _ _) (fun _ => .bindQ (Quiet.setRight _ _) fun _ => .bindQ .hasErr fun _ =>
      .ite (Quiet.told (.bind (Quiet.mErase _ _) fun _ => .pure _)) (.bindQ (.rd _) fun _ => hg _ _ _)) fun _ =>
      .bindQ (Quiet.setRight _ _) fun _ => .check (Quiet.stops (.bind (Quiet.mErase _ _) fun _ => .pure _))
macro_rules | `(tactic| told_leaf) => `(tactic| with_reducible exact Told.mCopy _ _ _)

theorem Told.copyNothrow (prop : Bool) (hdr src : Ptr) : Told B (copyNothrow prop hdr src : M (W K) Unit) := by
  unfold RB.copyNothrow
  refine .ite ?_ (Quiet.pure _).told
  refine .bindQ (Quiet.clear _) fun _ => .bindQ (Quiet.allocOnCopy _ _ _) fun _ => .bindQ .hasErr fun _ =>
    .ite (Quiet.pure _).told ?_
  refine .check .tryCtor (fun _ => .pure _) fun _ => ?_
  refine .bindQ (.rd _) fun _ => .ite ?_ (Quiet.pure _).told
  refine .bindQ (.rd _) fun _ => .check (Told.mCopy _ _ _) (fun _ => .pure _) fun _ => ?_
  exact Quiet.told (by quietly)
macro_rules | `(tactic| told_leaf) => `(tactic| with_reducible exact Told.copyNothrow _ _ _)

theorem Told.exec (lt : K → K → Bool) (c : Set.Call K) : Told B (Set.exec lt c) := by
  unfold Set.exec; cases c <;> tells
macro_rules | `(tactic| told_leaf) => `(tactic| with_reducible exact Told.exec _ _)

theorem Quiet.index (c : Multi.MCall K) : Quiet (Multi.index c) := by
  unfold Multi.index; quietly
macro_rules | `(tactic| quiet_leaf) => `(tactic| with_reducible exact Quiet.index _)

theorem Told.mexec (lt : K → K → Bool) (c : Multi.MCall K) : Told B (Multi.mexec lt c) := by
  unfold Multi.mexec Multi.mrun; tells
macro_rules | `(tactic| told_leaf) => `(tactic| with_reducible exact Told.mexec _ _)

theorem Told.fexec (lt : K → K → Bool) (c : Full.FCall K) : Told B (Full.fexec lt c) := by
  unfold Full.fexec; tells

end Nestl.RB
