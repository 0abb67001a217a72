import Verif.ListOf.Model
set_option autoImplicit false
/-
The functions of lists that only follow and change links do the same whatever the elements are.
-/
namespace Nestl.LO
open Nestl.NO (NSim)
open Nestl.LL (LNode)
variable {A : Type}

theorem n_getNext (p : Ptr) : NSim (LL.getNext p : M (LL.W Ptr) Ptr) (LL.getNext p : M (LL.W A) Ptr) fun _ => True :=
  NSim.rd fun _ _ => .pure trivial
theorem n_getPrev (p : Ptr) : NSim (LL.getPrev p : M (LL.W Ptr) Ptr) (LL.getPrev p : M (LL.W A) Ptr) fun _ => True :=
  NSim.rd fun _ _ => .pure trivial
theorem n_setNext (p q : Ptr) : NSim (LL.setNext p q : M (LL.W Ptr) Unit) (LL.setNext p q : M (LL.W A) Unit) fun _ => True :=
  NSim.modCell (fun _ => rfl) fun _ _ => rfl
theorem n_setPrev (p q : Ptr) : NSim (LL.setPrev p q : M (LL.W Ptr) Unit) (LL.setPrev p q : M (LL.W A) Unit) fun _ => True :=
  NSim.modCell (fun _ => rfl) fun _ _ => rfl

theorem n_getAlloc (p : Ptr) : NSim (LC.getAlloc p : M (LL.W Ptr) Nat) (LC.getAlloc p : M (LL.W A) Nat) fun _ => True :=
  NSim.rd fun _ _ => .pure trivial

/-- One step of a program that only follows and changes links. -/
macro "nstep" : tactic => `(tactic| first
  | exact NSim.pure trivial
  | refine NSim.bind (n_getNext _) fun _ _ => ?_
  | refine NSim.bind (n_getPrev _) fun _ _ => ?_
  | refine NSim.bind (n_setNext _ _) fun _ _ => ?_
  | refine NSim.bind (n_setPrev _ _) fun _ _ => ?_
  | refine NSim.bind (NSim.assertM _) fun _ _ => ?_
  | exact NSim.assertM _
  | exact n_setNext _ _
  | exact n_setPrev _ _
  | refine NSim.ite (fun _ => ?_) (fun _ => ?_))

theorem n_checkNode (p : Ptr) : NSim (LL.checkNode p : M (LL.W Ptr) Unit) (LL.checkNode p : M (LL.W A) Unit) fun _ => True := by
  unfold LL.checkNode; repeat nstep

macro "nstep'" : tactic => `(tactic| first
  | nstep
  | refine NSim.bind (n_checkNode _) fun _ _ => ?_
  | exact n_checkNode _)

theorem n_initEmpty (p : Ptr) : NSim (LL.initEmpty p : M (LL.W Ptr) Unit) (LL.initEmpty p : M (LL.W A) Unit) fun _ => True := by
  unfold LL.initEmpty; repeat nstep'
theorem n_inject (p q : Ptr) : NSim (LL.inject p q : M (LL.W Ptr) Unit) (LL.inject p q : M (LL.W A) Unit) fun _ => True := by
  unfold LL.inject; repeat nstep'
theorem n_removeNode (p : Ptr) : NSim (LL.removeNode p : M (LL.W Ptr) Unit) (LL.removeNode p : M (LL.W A) Unit) fun _ => True := by
  unfold LL.removeNode; repeat nstep'
theorem n_transferNodes (p f l : Ptr) : NSim (LL.transferNodes p f l : M (LL.W Ptr) Unit) (LL.transferNodes p f l : M (LL.W A) Unit)
    fun _ => True := by
  unfold LL.transferNodes; repeat nstep'
theorem n_swapNodes (l r : Ptr) : NSim (LL.swapNodes l r : M (LL.W Ptr) Unit) (LL.swapNodes l r : M (LL.W A) Unit) fun _ => True := by
  unfold LL.swapNodes; repeat nstep'
theorem n_swap (l r : Ptr) : NSim (LL.swap l r : M (LL.W Ptr) Unit) (LL.swap l r : M (LL.W A) Unit) fun _ => True := n_swapNodes r l
theorem n_incr (p : Ptr) : NSim (LL.incr p : M (LL.W Ptr) Ptr) (LL.incr p : M (LL.W A) Ptr) fun _ => True := by
  unfold LL.incr; repeat nstep'
theorem n_decr (p : Ptr) : NSim (LL.decr p : M (LL.W Ptr) Ptr) (LL.decr p : M (LL.W A) Ptr) fun _ => True := by
  unfold LL.decr; repeat nstep'
theorem n_itEq (a b : Ptr) : NSim (LL.itEq a b : M (LL.W Ptr) Bool) (LL.itEq a b : M (LL.W A) Bool) fun _ => True := by
  unfold LL.itEq; repeat nstep'
theorem n_begin (s : Ptr) : NSim (LL.begin_ s : M (LL.W Ptr) Ptr) (LL.begin_ s : M (LL.W A) Ptr) fun _ => True := by
  unfold LL.begin_; repeat nstep'
theorem n_end (s : Ptr) : NSim (LL.end_ s : M (LL.W Ptr) Ptr) (LL.end_ s : M (LL.W A) Ptr) fun _ => True := by
  unfold LL.end_; repeat nstep'
theorem n_empty (s : Ptr) : NSim (LL.empty s : M (LL.W Ptr) Bool) (LL.empty s : M (LL.W A) Bool) fun _ => True := by
  unfold LL.empty; repeat nstep'
theorem n_transfer (p f l : Ptr) : NSim (LL.transfer p f l : M (LL.W Ptr) Unit) (LL.transfer p f l : M (LL.W A) Unit) fun _ => True := by
  unfold LL.transfer
  exact NSim.bind (n_checkNode _) fun _ _ => NSim.bind (n_checkNode _) fun _ _ => NSim.bind (n_checkNode _) fun _ _ => n_transferNodes _ _ _
theorem n_spliceAll (p t : Ptr) : NSim (LL.spliceAll p t : M (LL.W Ptr) Unit) (LL.spliceAll p t : M (LL.W A) Unit) fun _ => True := by
  unfold LL.spliceAll
  refine NSim.bind (n_empty _) fun _ _ => .ite (fun _ => .pure trivial) fun _ => NSim.bind (n_begin _) fun _ _ =>
    NSim.bind (n_end _) fun _ _ => n_transfer _ _ _
theorem n_spliceOne (p t : Ptr) : NSim (LL.spliceOne p t : M (LL.W Ptr) Unit) (LL.spliceOne p t : M (LL.W A) Unit) fun _ => True := by
  unfold LL.spliceOne
  refine NSim.bind (n_incr _) fun _ _ => NSim.bind (n_itEq _ _) fun _ _ => .ite (fun _ => .pure trivial) fun _ =>
    NSim.bind (n_itEq _ _) fun _ _ => .ite (fun _ => .pure trivial) fun _ => n_transfer _ _ _
theorem n_spliceRange (p f l : Ptr) : NSim (LL.spliceRange p f l : M (LL.W Ptr) Unit) (LL.spliceRange p f l : M (LL.W A) Unit)
    fun _ => True := by
  unfold LL.spliceRange
  exact NSim.bind (n_itEq _ _) fun _ _ => .ite (fun _ => .pure trivial) fun _ => n_transfer _ _ _

theorem n_arrAt (tmp : List Ptr) (i : Nat) : NSim (LL.arrAt tmp i : M (LL.W Ptr) Ptr) (LL.arrAt tmp i : M (LL.W A) Ptr)
    fun p => p ∈ tmp := by
  unfold LL.arrAt
  rcases e : tmp[i]? with _ | p
  · exact .fault
  · exact .pure (List.mem_of_getElem? e)

theorem n_newList (a : Nat) : NSim (LL.newList a : M (LL.W Ptr) Ptr) (LL.newList a : M (LL.W A) Ptr) fun p => ∃ k, p = .stk k := by
  unfold LL.newList
  refine NSim.bind (NSim.newObj (fun _ => rfl) fun _ _ => rfl) fun p hp => NSim.bind (n_initEmpty p) fun _ _ => .pure hp

theorem n_newLists (n : Nat) : NSim (LL.newLists n : M (LL.W Ptr) (List Ptr)) (LL.newLists n : M (LL.W A) (List Ptr))
    fun ps => ∀ p ∈ ps, ∃ k, p = .stk k := by
  induction n with
  | zero => exact .pure (by simp)
  | succ n ih => exact NSim.bind (n_newList _) fun p hp => NSim.bind ih fun ps hps => .pure (by
      intro q hq
      rcases List.mem_cons.1 hq with rfl | h
      · exact hp
      · exact hps q h)

theorem n_moveCtor (t : Ptr) : NSim (LL.moveCtor t : M (LL.W Ptr) Ptr) (LL.moveCtor t : M (LL.W A) Ptr) fun p => ∃ k, p = .stk k := by
  unfold LL.moveCtor
  exact NSim.rd fun _ _ => NSim.bind (n_newList _) fun p hp => NSim.bind (n_swapNodes _ _) fun _ _ => .pure hp

theorem n_putNode (s p : Ptr) : NSim (LL.putNode s p : M (LL.W Ptr) Unit) (LL.putNode s p : M (LL.W A) Unit) fun _ => True := by
  unfold LL.putNode
  refine NSim.rd fun f c => NSim.freeCell ?_
  intro g d hl h
  simp only [NO.Cell.abs] at h
  split at h
  · cases h
  · rename_i h1
    simp only [h1, if_false]
    split at h
    · cases h
    · rename_i h2
      have : d.val = none := by
        rcases e : d.val with _ | q
        · rfl
        · rw [e] at h2
          rcases e' : g q with _ | x
          · exact (hl q e e').elim
          · simp [e'] at h2
      exact ⟨by simp [this], this⟩

theorem n_distance : ∀ (f l : Ptr), NSim (LL.distance f l : M (LL.W Ptr) Nat) (LL.distance f l : M (LL.W A) Nat) fun _ => True := by
  intro f l
  revert f
  refine LL.distance.fixpoint_induct (V := A) l (motive := fun n => ∀ f, NSim (LL.distance f l : M (LL.W Ptr) Nat) (n f) fun _ => True) ?_ ?_
  · exact NSim.admissible1 _ _
  · intro g ih f
    rw [LL.distance]
    exact NSim.bind (n_itEq _ _) fun _ _ => .ite (fun _ => .pure trivial) fun _ =>
      NSim.bind (n_incr _) fun _ _ => NSim.bind (ih _) fun _ _ => .pure trivial

theorem n_size (s : Ptr) : NSim (LL.size s : M (LL.W Ptr) Nat) (LL.size s : M (LL.W A) Nat) fun _ => True :=
  NSim.bind (n_begin _) fun _ _ => NSim.bind (n_end _) fun _ _ => n_distance _ _

end Nestl.LO
