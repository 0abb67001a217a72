import Verif.TreeOf.Model
set_option autoImplicit false
set_option maxHeartbeats 1000000
/-
The functions of trees that only follow and change links do the same whatever the elements are.
-/
namespace Nestl.TO
open Nestl.NO (NSim)
open Nestl.RB
variable {A : Type}

/-- The same program on nodes that hold objects and on nodes that hold values. -/
abbrev Both {α : Type} (m : {K : Type} → M (W K) α) (A : Type) (Q : α → Prop) : Prop := NSim (m (K := Ptr)) (m (K := A)) Q

theorem n_setColor (p : Ptr) (c : Color) : Both (setColor p c) A fun _ => True := NSim.modCell (fun _ => rfl) fun _ _ => rfl
theorem n_setParent (p q : Ptr) : Both (setParent p q) A fun _ => True := NSim.modCell (fun _ => rfl) fun _ _ => rfl
theorem n_setLeft (p q : Ptr) : Both (setLeft p q) A fun _ => True := NSim.modCell (fun _ => rfl) fun _ _ => rfl
theorem n_setRight (p q : Ptr) : Both (setRight p q) A fun _ => True := NSim.modCell (fun _ => rfl) fun _ _ => rfl
theorem n_setCount (p : Ptr) (g : Nat → Nat) : Both (setCount p g) A fun _ => True := NSim.modCell (fun _ => rfl) fun _ _ => rfl
theorem n_setOwner (p : Ptr) (a : Nat) : Both (modCell p fun n => { n with owner := a }) A fun _ => True :=
  NSim.modCell (fun _ => rfl) fun _ _ => rfl
theorem n_newTree (a : Nat) : Both (newTree a) A fun p => ∃ k, p = .stk k := NSim.newObj (fun _ => rfl) fun _ _ => rfl

/-- One step of a program that only follows and changes links. -/
macro "nstep" : tactic => `(tactic| first
  | exact NSim.pure trivial
  | refine NSim.rd fun _ _ => ?_
  | refine NSim.bind (n_setColor _ _) fun _ _ => ?_
  | refine NSim.bind (n_setParent _ _) fun _ _ => ?_
  | refine NSim.bind (n_setLeft _ _) fun _ _ => ?_
  | refine NSim.bind (n_setRight _ _) fun _ _ => ?_
  | refine NSim.bind (n_setCount _ _) fun _ _ => ?_
  | refine NSim.bind (n_setOwner _ _) fun _ _ => ?_
  | refine NSim.bind (NSim.assertM _) fun _ _ => ?_
  | exact n_setColor _ _
  | exact n_setParent _ _
  | exact n_setLeft _ _
  | exact n_setRight _ _
  | exact n_setCount _ _
  | exact n_setOwner _ _
  | refine NSim.ite (fun _ => ?_) (fun _ => ?_))

theorem n_minLoop (x : Ptr) : Both (minLoop x) A fun _ => True := by
  revert x
  refine minLoop.fixpoint_induct (K := A) (motive := fun n => ∀ x, NSim (minLoop x : M (W Ptr) Ptr) (n x) fun _ => True) ?_ ?_
  · exact NSim.admissible1 _ _
  · intro g ih x
    rw [minLoop]
    refine NSim.rd fun _ _ => .ite (fun _ => ih _) fun _ => .pure trivial

theorem n_maxLoop (x : Ptr) : Both (maxLoop x) A fun _ => True := by
  revert x
  refine maxLoop.fixpoint_induct (K := A) (motive := fun n => ∀ x, NSim (maxLoop x : M (W Ptr) Ptr) (n x) fun _ => True) ?_ ?_
  · exact NSim.admissible1 _ _
  · intro g ih x
    rw [maxLoop]
    refine NSim.rd fun _ _ => .ite (fun _ => ih _) fun _ => .pure trivial

theorem n_sMinimum (x : Ptr) : Both (sMinimum x) A fun _ => True := NSim.bind (NSim.assertM _) fun _ _ => n_minLoop x
theorem n_sMaximum (x : Ptr) : Both (sMaximum x) A fun _ => True := NSim.bind (NSim.assertM _) fun _ _ => n_maxLoop x

theorem n_incClimb (x y : Ptr) : Both (incClimb x y) A fun _ => True := by
  revert x y
  refine incClimb.fixpoint_induct (K := A) (motive := fun n => ∀ x y, NSim (incClimb x y : M (W Ptr) (Ptr × Ptr)) (n x y) fun _ => True) ?_ ?_
  · exact Lean.Order.admissible_pi_apply _ fun x => NSim.admissible1 _ _
  · intro g ih x y
    rw [incClimb]
    refine NSim.rd fun _ _ => .ite (fun _ => ih _ _) fun _ => .pure trivial

theorem n_decClimb (x y : Ptr) : Both (decClimb x y) A fun _ => True := by
  revert x y
  refine decClimb.fixpoint_induct (K := A) (motive := fun n => ∀ x y, NSim (decClimb x y : M (W Ptr) Ptr) (n x y) fun _ => True) ?_ ?_
  · exact Lean.Order.admissible_pi_apply _ fun x => NSim.admissible1 _ _
  · intro g ih x y
    rw [decClimb]
    refine NSim.rd fun _ _ => .ite (fun _ => ih _ _) fun _ => .pure trivial

theorem n_increment (x : Ptr) : Both (increment x) A fun _ => True := by
  unfold Both increment
  refine NSim.rd fun _ _ => .ite (fun _ => n_minLoop _) fun _ => .bind (n_incClimb _ _) ?_
  rintro ⟨x, y⟩ -
  exact NSim.rd fun _ _ => .ite (fun _ => .pure trivial) fun _ => .pure trivial

theorem n_decrement (x : Ptr) : Both (decrement x) A fun _ => True := by
  unfold Both decrement
  refine NSim.rd fun _ _ => .bind (Q := fun _ => True) (.ite (fun _ => .rd fun _ _ => .pure trivial) fun _ => .pure trivial) fun b _ =>
    .ite (fun _ => .pure trivial) fun _ => .ite (fun _ => n_maxLoop _) fun _ => n_decClimb _ _

theorem n_reparent (b x : Ptr) : Both (reparent b x) A fun _ => True := .ite (fun _ => n_setParent _ _) fun _ => .pure trivial
theorem n_relinkL (hdr x y : Ptr) : Both (relinkL hdr x y) A fun _ => True := by
  unfold Both relinkL; repeat nstep
theorem n_relinkR (hdr x y : Ptr) : Both (relinkR hdr x y) A fun _ => True := by
  unfold Both relinkR; repeat nstep

macro "nstep'" : tactic => `(tactic| first
  | nstep
  | refine NSim.bind (n_reparent _ _) fun _ _ => ?_
  | refine NSim.bind (n_relinkL _ _ _) fun _ _ => ?_
  | refine NSim.bind (n_relinkR _ _ _) fun _ _ => ?_)

theorem n_rotateLeft (hdr x : Ptr) : Both (rotateLeft hdr x) A fun _ => True := by
  unfold Both rotateLeft; repeat nstep'
theorem n_rotateRight (hdr x : Ptr) : Both (rotateRight hdr x) A fun _ => True := by
  unfold Both rotateRight; repeat nstep'
theorem n_isRed (y : Ptr) : Both (isRed y) A fun _ => True := .ite (fun _ => .pure trivial) fun _ => .rd fun _ _ => .pure trivial
theorem n_blackOrNull (y : Ptr) : Both (blackOrNull y) A fun _ => True := .ite (fun _ => .pure trivial) fun _ => .rd fun _ _ => .pure trivial

macro "nstep2" : tactic => `(tactic| first
  | nstep'
  | refine NSim.bind (n_rotateLeft _ _) fun _ _ => ?_
  | refine NSim.bind (n_rotateRight _ _) fun _ _ => ?_
  | refine NSim.bind (n_isRed _) fun _ _ => ?_
  | refine NSim.bind (n_blackOrNull _) fun _ _ => ?_
  | exact n_blackOrNull _)

theorem n_insFix (hdr x : Ptr) : Both (insFix hdr x) A fun _ => True := by
  revert x
  refine insFix.fixpoint_induct (K := A) hdr (motive := fun n => ∀ x, NSim (insFix hdr x : M (W Ptr) Unit) (n x) fun _ => True) ?_ ?_
  · exact NSim.admissible1 _ _
  · intro g ih x
    rw [insFix]
    repeat (first | nstep2 | exact ih _)

theorem n_insLink (b : Bool) (x p hdr : Ptr) : Both (insLink b x p hdr) A fun _ => True := by
  unfold Both insLink; repeat nstep2

theorem n_insertAndRebalance (b : Bool) (x p hdr : Ptr) : Both (insertAndRebalance b x p hdr) A fun _ => True := by
  unfold Both insertAndRebalance
  exact .bind (n_insLink _ _ _ _) fun _ _ => .bind (n_insFix _ _) fun _ _ => .rd fun _ _ => n_setColor _ _

theorem n_eraseLeftmost (z hdr x : Ptr) : Both (eraseLeftmost z hdr x) A fun _ => True := by
  unfold Both eraseLeftmost
  repeat (first | nstep2 | refine NSim.bind (n_sMinimum _) fun _ _ => ?_)

theorem n_eraseRightmost (z hdr x : Ptr) : Both (eraseRightmost z hdr x) A fun _ => True := by
  unfold Both eraseRightmost
  repeat (first | nstep2 | refine NSim.bind (n_sMaximum _) fun _ _ => ?_)

theorem n_eraseUnlink (z hdr : Ptr) : Both (eraseUnlink z hdr) A fun _ => True := by
  unfold Both eraseUnlink
  refine NSim.rd fun _ _ => .bind (Q := fun _ => True) ?_ ?_
  · exact .ite (fun _ => .pure trivial) fun _ => .ite (fun _ => .pure trivial) fun _ => .bind (n_minLoop _) fun _ _ => .rd fun _ _ => .pure trivial
  · rintro ⟨y, x⟩ -
    refine .ite (fun _ => ?_) fun _ => ?_
    · repeat (first | nstep2 | refine NSim.bind (Q := fun _ => True) (NSim.ite (fun _ => ?_) (fun _ => ?_)) fun _ _ => ?_)
    · repeat (first | nstep2 | refine NSim.bind (n_eraseLeftmost _ _ _) fun _ _ => ?_ |
        refine NSim.bind (n_eraseRightmost _ _ _) fun _ _ => ?_)

theorem n_eraseFix (hdr x xp : Ptr) : Both (eraseFix hdr x xp) A fun _ => True := by
  revert x xp
  refine eraseFix.fixpoint_induct (K := A) hdr (motive := fun n => ∀ x xp, NSim (eraseFix hdr x xp : M (W Ptr) Ptr) (n x xp) fun _ => True) ?_ ?_
  · exact Lean.Order.admissible_pi_apply _ fun x => NSim.admissible1 _ _
  · intro g ih x xp
    rw [eraseFix]
    repeat (first | nstep2 | exact ih _ _ | refine NSim.bind (Q := fun _ => True) (NSim.ite (fun _ => ?_) (fun _ => ?_)) fun _ _ => ?_)

theorem n_rebalanceForErase (z hdr : Ptr) : Both (rebalanceForErase z hdr) A fun _ => True := by
  unfold Both rebalanceForErase
  refine .bind (n_eraseUnlink _ _) ?_
  rintro ⟨x, xp⟩ -
  repeat (first | nstep2 | refine NSim.bind (n_eraseFix _ _ _) fun _ _ => ?_)

theorem n_putNode (hdr p : Ptr) : Both (putNode hdr p) A fun _ => True := by
  unfold Both putNode
  refine NSim.rd fun f c => NSim.freeCell ?_
  intro g d hl h
  simp only [NO.Cell.abs] at h
  split at h
  · cases h
  · rename_i h1
    simp only [h1, if_false]
    split at h
    · cases h
    · rename_i h2
      have : d.val = none := by
        rcases e : d.val with _ | q
        · rfl
        · rw [e] at h2
          rcases e' : g q with _ | x
          · exact (hl q e e').elim
          · simp [e'] at h2
      exact ⟨by simp [this], this⟩

theorem n_begin (s : Ptr) : Both (begin_ s) A fun _ => True := .rd fun _ _ => .pure trivial
theorem n_end (s : Ptr) : Both (end_ s) A fun _ => True := .pure trivial
theorem n_size (s : Ptr) : Both (size s) A fun _ => True := .rd fun _ _ => .pure trivial
theorem n_empty (s : Ptr) : Both (empty s) A fun _ => True := .rd fun _ _ => .pure trivial

theorem n_distance (f l : Ptr) : Both (distance f l) A fun _ => True := by
  revert f
  refine distance.fixpoint_induct (K := A) l (motive := fun n => ∀ f, NSim (distance f l : M (W Ptr) Nat) (n f) fun _ => True) ?_ ?_
  · exact NSim.admissible1 _ _
  · intro g ih f
    rw [distance]
    exact .ite (fun _ => .bind (n_increment _) fun _ _ => .bind (ih _) fun _ _ => .pure trivial) fun _ => .pure trivial

theorem n_allocOnCopy (b : Bool) (d s : Ptr) : Both (allocOnCopy b d s) A fun _ => True := by
  unfold Both allocOnCopy; repeat nstep
theorem n_allocOnMove (b : Bool) (d s : Ptr) : Both (allocOnMove b d s) A fun _ => True := by
  unfold Both allocOnMove; repeat nstep
theorem n_allocOnSwap (b : Bool) (d s : Ptr) : Both (allocOnSwap b d s) A fun _ => True := by
  unfold Both allocOnSwap; repeat nstep
theorem n_moveData (d s : Ptr) : Both (moveData d s) A fun _ => True := by
  unfold Both moveData; repeat nstep
theorem n_moveLinks (d s : Ptr) : Both (moveLinks d s) A fun _ => True := by
  unfold Both moveLinks; repeat nstep
theorem n_swapLinks (d s : Ptr) : Both (swapLinks d s) A fun _ => True := by
  unfold Both swapLinks; repeat nstep
theorem n_swapCounts (d s : Ptr) : Both (swapCounts d s) A fun _ => True := by
  unfold Both swapCounts; repeat nstep

theorem n_swapTrees (b : Bool) (s t : Ptr) : Both (swapTrees b s t) A fun _ => True := by
  unfold Both swapTrees
  have k : NSim (do swapCounts s t; allocOnSwap b s t : M (W Ptr) Unit) (do swapCounts s t; allocOnSwap b s t : M (W A) Unit) fun _ => True :=
    .bind (n_swapCounts _ _) fun _ _ => n_allocOnSwap _ _ _
  refine NSim.rd fun _ _ => .ite (fun _ => .rd fun _ _ => .ite (fun _ => .bind (n_moveLinks _ _) fun _ _ => k) fun _ =>
    k) fun _ => .rd fun _ _ => .ite (fun _ => .bind (n_moveLinks _ _) fun _ _ => k) fun _ =>
      .bind (n_swapLinks _ _) fun _ _ => ?_
  repeat (first | nstep | exact k)

theorem n_moveCtor (s : Ptr) : Both (moveCtor s) A fun p => ∃ k, p = .stk k := by
  unfold Both moveCtor
  refine .rd fun _ _ => .bind (n_newTree _) fun p hp => .rd fun _ _ => .ite (fun _ => .bind (n_moveData _ _) fun _ _ => .pure hp) fun _ =>
    ?_
  first | exact .pure hp | exact .bind (.pure trivial) fun _ _ => .pure hp

theorem n_resetLinks (s : Ptr) : Both (resetLinks s) A fun _ => True := by
  unfold Both resetLinks; repeat nstep
theorem n_linkNode (b : Bool) (hdr p l : Ptr) : Both (linkNode b hdr p l) A fun _ => True :=
  .bind (n_insertAndRebalance _ _ _ _) fun _ _ => .bind (n_setCount _ _) fun _ _ => .pure trivial
theorem n_cloneLinks (l : Ptr) (c : Color) : Both (cloneLinks l c) A fun _ => True := by
  unfold Both cloneLinks; repeat nstep
theorem n_adopt (hdr src link : Ptr) : Both (adopt hdr src link) A fun _ => True := by
  unfold Both adopt
  repeat (first | nstep | refine NSim.bind (n_minLoop _) fun _ _ => ?_ | refine NSim.bind (n_maxLoop _) fun _ _ => ?_)

end Nestl.TO
