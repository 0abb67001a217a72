import Verif.Vector.Client
import Verif.Told
set_option autoImplicit false
/-
How the operations of `vector` report failures.
-/
namespace Nestl.Vec
open Lean.Order
variable {V : Type} {B : Prop}

theorem Quiet.rdObj (s : Ptr) : Quiet (rdObj s : M (W V) Obj) := by unfold Vec.rdObj; quietly
theorem Quiet.setObj (s : Ptr) (o : Obj) : Quiet (setObj s o : M (W V) Unit) := .modCell _ _
theorem Quiet.rdBlk (p : Ptr) : Quiet (rdBlk p : M (W V) (Blk V)) := by unfold Vec.rdBlk; quietly
macro_rules | `(tactic| quiet_leaf) => `(tactic| with_reducible exact Nestl.Vec.Quiet.rdObj _)
macro_rules | `(tactic| quiet_leaf) => `(tactic| with_reducible exact Nestl.Vec.Quiet.setObj _ _)
macro_rules | `(tactic| quiet_leaf) => `(tactic| with_reducible exact Nestl.Vec.Quiet.rdBlk _)
theorem Quiet.slotRd (p : Ptr) (i : Nat) : Quiet (slotRd p i : M (W V) V) := by unfold Vec.slotRd; quietly
theorem Quiet.slotPut (p : Ptr) (i : Nat) (v : V) : Quiet (slotPut p i v : M (W V) Unit) := by unfold Vec.slotPut; quietly
theorem Quiet.destroySlot (p : Ptr) (i : Nat) : Quiet (destroySlot p i : M (W V) Unit) := by unfold Vec.destroySlot; quietly
theorem Quiet.destroyRange (p : Ptr) (i n : Nat) : Quiet (destroyRange p i n : M (W V) Unit) := by
  induction n generalizing i with
  | zero => exact .pure _
  | succ n ih => exact .bind (Quiet.destroySlot _ _) fun _ => ih _
theorem Quiet.argVal (a : Arg V) : Quiet (argVal a : M (W V) V) := by
  cases a
  · exact .pure _
  · exact Quiet.slotRd _ _
theorem Quiet.deallocate (a : Nat) (p : Ptr) (n : Nat) : Quiet (deallocate a p n : M (W V) Unit) := .freeCell _ _
macro_rules | `(tactic| quiet_leaf) => `(tactic| with_reducible exact Nestl.Vec.Quiet.slotRd _ _)
macro_rules | `(tactic| quiet_leaf) => `(tactic| with_reducible exact Nestl.Vec.Quiet.slotPut _ _ _)
macro_rules | `(tactic| quiet_leaf) => `(tactic| with_reducible exact Nestl.Vec.Quiet.destroySlot _ _)
macro_rules | `(tactic| quiet_leaf) => `(tactic| with_reducible exact Nestl.Vec.Quiet.destroyRange _ _ _)
macro_rules | `(tactic| quiet_leaf) => `(tactic| with_reducible exact Nestl.Vec.Quiet.argVal _)
macro_rules | `(tactic| quiet_leaf) => `(tactic| with_reducible exact Nestl.Vec.Quiet.deallocate _ _ _)

theorem Told.construct (p : Ptr) (i : Nat) (a : Arg V) : Told B (construct p i a) := by
  unfold Vec.construct; tells

/-- The loop of `uninitialised_copy` reports what happens and its flag tells whether it has failed. -/
theorem Told.ucLoop (p : Ptr) (i : Nat) (as : List (Arg V)) : Told B (ucLoop p i as) := by
  induction as generalizing i with
  | nil => exact (Quiet.pure _).told
  | cons a as ih => exact .check (Told.construct _ _ _) (fun _ => .pure _) fun _ => ih _

theorem Told.uninitCopy (src : List (Arg V)) (p : Ptr) (i : Nat) : Told B (uninitCopy src p i) := by
  unfold Vec.uninitCopy
  exact .then (Told.ucLoop _ _ _) fun _ => by quietly

theorem Told.shift (p : Ptr) (i k : Nat) : Told B (shift p i k : M (W V) Bool) := by
  induction k with
  | zero => exact (Quiet.pure _).told
  | succ k ih => exact .check (Told.construct _ _ _) (fun _ => .pure _) fun _ => .bindQ (Quiet.destroySlot _ _) fun _ => ih

/-- `m` returns `b` whenever it reports an error. -/
def Flags {N α : Type} (m : M (World N) α) (P : α → Prop) : Prop :=
  ∀ w a w', Runs m w a w' → w.err = none → w'.err ≠ none → P a

theorem Told.bindF {N α β : Type} {m : M (World N) α} {k : α → M (World N) β} {P : α → Prop} (h : Told B m) (hf : Flags m P)
    (hk : ∀ a, Told B (k a)) (hs : ∀ a, P a → Stops (k a)) : Told B (m >>= k) := by
  intro w b w2 hr he
  obtain ⟨a, w1, h1, h3⟩ := runs_steps hr
  have ho := h _ _ _ h1 he
  by_cases hn : w1.err = none
  · exact ho.trans hn (hk a _ _ _ h3 hn)
  · exact ho.still (hs a (hf _ _ _ h1 he hn) _ _ _ h3 hn)

theorem Flags.shift (p : Ptr) (i k : Nat) : Flags (shift p i k : M (W V) Bool) (· = false) := by
  induction k with
  | zero =>
    intro w a w' h he hn
    cases h; exact absurd he hn
  | succ k ih =>
    intro w a w' h he hn
    unfold Vec.shift at h
    obtain ⟨_, w1, -, h2⟩ := runs_steps h
    obtain ⟨b, w2, h3, h4⟩ := runs_steps h2
    cases h3
    split at h4
    · cases h4; rfl
    · rename_i hb
      obtain ⟨_, w3, h5, h6⟩ := runs_steps h4
      have hs := Quiet.destroySlot _ _ _ _ _ h5
      exact ih _ _ _ h6 (hs.err.trans (by simpa using hb)) hn

theorem Quiet.newVec (a : Nat) : Quiet (newVec a : M (W V) Ptr) := .newObj _
theorem Quiet.destroyVec (s : Ptr) : Quiet (destroyVec s : M (W V) Unit) := by unfold Vec.destroyVec; quietly
theorem Quiet.swapData (s t : Ptr) : Quiet (swapData s t : M (W V) Unit) := by unfold Vec.swapData; quietly
theorem Quiet.swap (s t : Ptr) : Quiet (swap s t : M (W V) Unit) := by unfold Vec.swap Vec.swapData; quietly
theorem Quiet.clear (s : Ptr) : Quiet (clear s : M (W V) Unit) := by unfold Vec.clear; quietly
theorem Quiet.moveCtor (s : Ptr) : Quiet (moveCtor s : M (W V) Ptr) := by unfold Vec.moveCtor Vec.newVec Vec.swapData; quietly
theorem Quiet.moveAssign (s t : Ptr) : Quiet (moveAssign s t : M (W V) Unit) :=
  .bind (Quiet.moveCtor _) fun _ => .bind (Quiet.swapData _ _) fun _ => Quiet.destroyVec _

section
variable [ElemSize V]

/-- The size of some request exceeds what the allocator can provide. -/
def TooBig (V : Type) [ElemSize V] : Prop := ∃ n, maxBytes < wrap (n * ElemSize.size V)

theorem Told.allocate (a n : Nat) : Told (TooBig V) (allocate a n : M (W V) Ptr) := by
  intro w p w' h he
  unfold Runs Vec.allocate at h
  by_cases hb : maxBytes < wrap (n * ElemSize.size V)
  · rw [if_pos hb] at h
    cases h
    exact ⟨rfl, Nat.le_succ _, Nat.le_refl _, fun _ h => .inl h,
      .badAlloc w.nAlloc (Nat.le_refl _) rfl (fun k h1 h2 => absurd h2 (Nat.not_lt.2 h1))
        (fun k h1 h2 => absurd h2 (Nat.not_lt.2 h1)) (.inr ⟨n, hb⟩)⟩
  · rw [if_neg hb] at h
    exact Told.allocCell _ _ _ _ h he

theorem Told.doReserve (s : Ptr) (n : Nat) : Told (TooBig V) (doReserve s n : M (W V) Unit) :=
  .bindQ (Quiet.rdObj _) fun _ => .check (Told.allocate _ _) (fun _ => .pure _) fun _ =>
    .check (Told.uninitCopy _ _ _) (fun _ => Quiet.deallocate _ _ _) fun _ => Quiet.told (by quietly)
theorem Told.reserve (s : Ptr) (n : Nat) : Told (TooBig V) (reserve s n : M (W V) Unit) :=
  .bindQ (Quiet.rdObj _) fun _ => .ite (Quiet.pure _).told (Told.doReserve _ _)
theorem Told.shrinkToFit (s : Ptr) : Told (TooBig V) (shrinkToFit s : M (W V) Unit) :=
  .bindQ (Quiet.rdObj _) fun _ => .ite (Told.doReserve _ _) (Quiet.pure _).told
theorem Told.grow (s : Ptr) (n : Nat) : Told (TooBig V) (grow s n : M (W V) Unit) :=
  .bindQ (Quiet.rdObj _) fun _ => .bindQ (.assertM _) fun _ => Told.reserve _ _
theorem Told.growIfFull (s : Ptr) : Told (TooBig V) (growIfFull s : M (W V) Bool) :=
  .bindQ (Quiet.rdObj _) fun _ => .ite (.then (Told.grow _ _) fun _ => .hasErr) (Quiet.pure _).told

theorem Flags.growIfFull (s : Ptr) : Flags (growIfFull s : M (W V) Bool) (· = true) := by
  intro w a w' h he hn
  unfold Vec.growIfFull at h
  obtain ⟨o, w1, h1, h2⟩ := runs_steps h
  have hs := Quiet.rdObj _ _ _ _ h1
  split at h2
  · obtain ⟨_, w2, -, h4⟩ := runs_steps h2
    cases h4
    exact Option.isSome_iff_ne_none.2 hn
  · cases h2
    exact absurd (hs.err.trans he) hn

theorem Told.insertValue (s : Ptr) (i : Nat) (a : Arg V) : Told (TooBig V) (insertValue s i a) := by
  unfold Vec.insertValue
  refine .bindQ (Quiet.rdObj _) fun o => .bindQ (.assertM _) fun _ => ?_
  refine Told.bindF (Told.growIfFull _) (Flags.growIfFull _) (fun b => ?_) (fun b hb => ?_)
  · refine .ite (Quiet.pure _).told (.bindQ (Quiet.rdObj _) fun o => .bindQ (.assertM _) fun _ => ?_)
    refine Told.bindF (Told.shift _ _ _) (Flags.shift _ _ _) (fun b => ?_) (fun b hb => ?_)
    · exact .ite (Quiet.pure _).told (.check (Told.construct _ _ _) (fun _ => .pure _) fun _ =>
        Quiet.told (.bind (Quiet.setObj _ _) fun _ => .pure _))
    · subst hb
      exact (Quiet.pure _).stops
  · subst hb
    exact (Quiet.pure _).stops

theorem Told.insertRangeLoop (s : Ptr) (i : Nat) (as : List (Arg V)) : Told (TooBig V) (insertRangeLoop s i as) := by
  induction as generalizing i with
  | nil => exact (Quiet.pure _).told
  | cons a as ih => exact .check (Told.insertValue _ _ _) (fun _ => .pure _) fun _ => ih _
theorem Told.insertRange (s : Ptr) (i : Nat) (as : List (Arg V)) : Told (TooBig V) (insertRange s i as) :=
  .bindQ (Quiet.rdObj _) fun _ => .bindQ (.assertM _) fun _ => Told.insertRangeLoop _ _ _
theorem Told.pushBack (s : Ptr) (a : Arg V) : Told (TooBig V) (pushBack s a) :=
  .bindQ (Quiet.rdObj _) fun _ => .then (Told.insertValue _ _ _) fun _ => .pure _
theorem Told.resizeLoop (s : Ptr) (a : Arg V) (n : Nat) : Told (TooBig V) (resizeLoop s a n) := by
  induction n with
  | zero => exact (Quiet.pure _).told
  | succ n ih =>
    exact .bindQ (Quiet.rdObj _) fun _ => .check (Told.construct _ _ _) (fun _ => .pure _) fun _ =>
      .bindQ (Quiet.setObj _ _) fun _ => ih
theorem Told.resize (s : Ptr) (n : Nat) (a : Arg V) : Told (TooBig V) (resize s n a) :=
  .bindQ (Quiet.rdObj _) fun _ => .ite (Quiet.told (by quietly))
    (.check (Told.grow _ _) (fun _ => .pure _) fun _ => Told.resizeLoop _ _ _)

theorem Told.assignLoop (s : Ptr) (a : Arg V) (n : Nat) : Told (TooBig V) (assignLoop s a n) := by
  induction n with
  | zero => exact (Quiet.pure _).told
  | succ n ih => exact .check (Told.pushBack _ _) (fun _ => .pure _) fun _ => ih
theorem Told.assignIter (s : Ptr) (as : List (Arg V)) : Told (TooBig V) (assignIter s as) := by
  induction as with
  | nil => exact (Quiet.pure _).told
  | cons a as ih => exact .check (Told.pushBack _ _) (fun _ => .pure _) fun _ => ih

theorem Told.assignN (s : Ptr) (n : Nat) (a : Arg V) : Told (TooBig V) (assignN s n a) := by
  unfold Vec.assignN
  refine .bindQ (Quiet.newVec _) fun tmp => .bindQ (Quiet.swap _ _) fun _ => .bindQ (Quiet.rdObj _) fun _ =>
    .bindQ (.assertM _) fun _ => .check (Told.grow _ _) (fun _ => Quiet.destroyVec _) fun _ =>
    .then (Told.assignLoop _ _ _) fun _ => Quiet.destroyVec _
theorem Told.assignInput (s : Ptr) (as : List (Arg V)) : Told (TooBig V) (assignInput s as) :=
  .bindQ (Quiet.newVec _) fun tmp => .bindQ (Quiet.swap _ _) fun _ => .bindQ (Quiet.rdObj _) fun _ =>
    .bindQ (.assertM _) fun _ => .then (Told.assignIter _ _) fun _ => Quiet.destroyVec _
theorem Told.assignRandom (s : Ptr) (as : List (Arg V)) : Told (TooBig V) (assignRandom s as) := by
  unfold Vec.assignRandom
  refine .bindQ (Quiet.newVec _) fun tmp => .bindQ (Quiet.swap _ _) fun _ => .bindQ (Quiet.rdObj _) fun _ =>
    .bindQ (.assertM _) fun _ => .check (Told.grow _ _) (fun _ => Quiet.destroyVec _) fun _ =>
    .bindQ (Quiet.rdObj _) fun _ => .bindQ (.assertM _) fun _ => .then (Told.assignIter _ _) fun _ => Quiet.destroyVec _
theorem Told.copyNothrow (s t : Ptr) : Told (TooBig V) (copyNothrow s t : M (W V) Unit) :=
  .bindQ (Quiet.rdObj _) fun _ => Told.assignRandom _ _

end
end Nestl.Vec

namespace Nestl.Vec
open Nestl.VC
variable {V : Type} [ElemSize V]

theorem Quiet.evalArg (a : CArg V) : Quiet (evalArg a : M (W V) (Arg V)) := by
  cases a
  · exact .pure _
  · exact .bind (Quiet.rdObj _) fun _ => .bind (.assertM _) fun _ => .pure _

theorem Told.exec (c : Call V) : Told (TooBig V) (VC.exec c) := by
  cases c
  case create => exact Quiet.told (.bind (Quiet.newVec _) fun _ => .pure _)
  case pushBack => exact .bindQ (Quiet.evalArg _) fun _ => .then (Told.pushBack _ _) fun _ => .pure _
  case insert => exact .bindQ (Quiet.evalArg _) fun _ => .then (Told.insertValue _ _ _) fun _ => .pure _
  case insertVals => exact .then (Told.insertRange _ _ _) fun _ => .pure _
  case clear => exact Quiet.told (.bind (Quiet.clear _) fun _ => .pure _)
  case reserve => exact .then (Told.reserve _ _) fun _ => .pure _
  case shrink => exact .then (Told.shrinkToFit _) fun _ => .pure _
  case resize => exact .bindQ (Quiet.evalArg _) fun _ => .then (Told.resize _ _ _) fun _ => .pure _
  case assignN => exact .bindQ (Quiet.evalArg _) fun _ => .then (Told.assignN _ _ _) fun _ => .pure _
  case assignVals => exact .then (Told.assignRandom _ _) fun _ => .pure _
  case assignInput => exact .then (Told.assignInput _ _) fun _ => .pure _
  case assignSub =>
    exact .bindQ (.bind (Quiet.rdObj _) fun _ => .pure _) fun _ => .then (Told.assignRandom _ _) fun _ => .pure _
  case copy => exact .then (Told.copyNothrow _ _) fun _ => .pure _
  case move => exact Quiet.told (.bind (Quiet.moveCtor _) fun _ => .pure _)
  case moveAssign => exact Quiet.told (.bind (Quiet.moveAssign _ _) fun _ => .pure _)
  case swap => exact Quiet.told (.bind (Quiet.swap _ _) fun _ => .pure _)
  case destroy => exact Quiet.told (.bind (Quiet.destroyVec _) fun _ => .pure _)

end Nestl.Vec
