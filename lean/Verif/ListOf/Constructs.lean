import Verif.NodeOf.Within
import Verif.ListOf.Refs
import Verif.ListOf.Asks
set_option autoImplicit false
/-
Property theorem about the elements that calls of lists of objects construct (C133).
-/
namespace Nestl.LO
open Nestl.VO (Elem ElemOps Counts)
open Nestl.NO (NS onO onI failed construct destroyElem compare Within Looks)
open Nestl.LL (LNode)
variable {S A X : Type}

macro_rules | `(tactic| within1) => `(tactic| with_reducible refine Within.link (by links))

theorem w_createNode {m : S → Nat} {E : ElemOps S} (hF : Counts E m) (s : Ptr) (a : Arg) : Within m (createNode E s a) := by
  unfold createNode
  exact .bind (.link (l_getAlloc _)) fun al => .node hF fun n => .bind .failed fun _ => .ite
    (.bind (.link (l_putNode _ _)) fun _ => .pure _) (.pure _)

/-! ### Functions that change links and destroy elements -/

section
variable {m : S → Nat} {E : ElemOps S} {less : Ptr → Ptr → M S Bool}

theorem w_mergeLoop (hL : Looks m less) (l1 l2 f1 f2 : Ptr) : Within m (mergeLoop less f1 l1 f2 l2) := by
  revert f1 f2
  have := mergeLoop.fixpoint_induct less l1 l2 (motive := fun (g : Ptr → Ptr → M (ST S) Ptr) => ∀ f1 f2, Within m (g f1 f2)) Within.admissible2 (by
    intro g ih f1 f2
    repeat' (first | with_reducible exact ih _ _ | within1))
  exact this

theorem w_merge (hL : Looks m less) (s t : Ptr) : Within m (merge less s t) := by
  unfold merge
  repeat' (first | with_reducible exact w_mergeLoop hL _ _ _ _ | within1)

variable (hF : Counts E m)
include hF

theorem w_destroyLoop (s p : Ptr) : Within m (destroyLoop E s p) := by
  revert p
  refine destroyLoop.fixpoint_induct E s (motive := fun g => ∀ p, Within m (g p)) Within.admissible1 ?_
  intro g ih p
  repeat' (first | with_reducible exact ih _ | exact Within.destroyElem hF _ | within1)

theorem w_destroyContent (s : Ptr) : Within m (destroyContent E s) := by
  unfold destroyContent
  repeat' (first | with_reducible exact w_destroyLoop hF _ _ | within1)

theorem w_destroyList (s : Ptr) : Within m (destroyList E s) := .bind (w_destroyContent hF s) fun _ => .onO (.dropObj s)

theorem w_clear (s : Ptr) : Within m (clear E s) := by
  unfold clear
  repeat' (first | with_reducible exact w_destroyContent hF _ | within1)

theorem w_moveAssign (s t : Ptr) : Within m (moveAssign E s t) := by
  unfold moveAssign
  repeat' (first | with_reducible exact w_destroyList hF _ | within1)

theorem w_erase (s p : Ptr) : Within m (erase E s p) := by
  unfold erase
  repeat' (first | exact Within.destroyElem hF _ | within1)

theorem w_eraseRange (s f l : Ptr) : Within m (eraseRange E s f l) := by
  revert f
  refine eraseRange.fixpoint_induct E s l (motive := fun g => ∀ p, Within m (g p)) Within.admissible1 ?_
  intro g ih p
  repeat' (first | with_reducible exact ih _ | with_reducible exact w_erase hF _ _ | within1)

theorem w_popBack (s : Ptr) : Within m (popBack E s) := by
  unfold popBack
  repeat' (first | with_reducible exact w_erase hF _ _ | within1)

theorem w_popFront (s : Ptr) : Within m (popFront E s) := by
  unfold popFront
  repeat' (first | with_reducible exact w_erase hF _ _ | within1)

theorem w_destroyLists (ps : List Ptr) : Within m (destroyLists E ps) := by
  induction ps with
  | nil => exact .pure _
  | cons p ps ih => exact .bind ih fun _ => w_destroyList hF p

omit hF in
theorem w_sortCarry (hL : Looks m less) (carry : Ptr) (tmp : List Ptr) (fill i : Nat) : Within m (sortCarry less carry tmp fill i) := by
  revert i
  refine sortCarry.fixpoint_induct less carry tmp fill (motive := fun g => ∀ p, Within m (g p)) Within.admissible1 ?_
  intro g ih p
  repeat' (first | with_reducible exact ih _ | with_reducible exact w_merge hL _ _ | within1)

omit hF in
theorem w_sortLoop (hL : Looks m less) (s carry : Ptr) (tmp : List Ptr) (fill : Nat) : Within m (sortLoop less s carry tmp fill) := by
  revert fill
  refine sortLoop.fixpoint_induct less s carry tmp (motive := fun g => ∀ p, Within m (g p)) Within.admissible1 ?_
  intro g ih p
  repeat' (first | with_reducible exact ih _ | with_reducible exact w_sortCarry hL _ _ _ _ | within1)

omit hF in
theorem w_sortMerge (hL : Looks m less) (tmp : List Ptr) (fill i : Nat) : Within m (sortMerge less tmp fill i) := by
  revert i
  refine sortMerge.fixpoint_induct less tmp fill (motive := fun g => ∀ p, Within m (g p)) Within.admissible1 ?_
  intro g ih p
  repeat' (first | with_reducible exact ih _ | with_reducible exact w_merge hL _ _ | within1)

theorem w_sort (hL : Looks m less) (s : Ptr) : Within m (sort E less s) := by
  unfold sort
  repeat' (first | with_reducible exact w_destroyLists hF _ | with_reducible exact w_destroyList hF _ | with_reducible exact w_sortLoop hL _ _ _ _ |
    with_reducible exact w_sortMerge hL _ _ _ | within1)

end

/-! ### Functions that construct elements -/

section
variable {m : S → Nat} {E : ElemOps S} (hF : Counts E m)
include hF

theorem w_emplace (s p : Ptr) (a : Arg) : Within m (emplace E s p a) := by
  unfold emplace
  repeat' (first | with_reducible exact w_createNode hF _ _ | within1)

theorem w_insertN (s : Ptr) (a : Arg) (n : Nat) : ∀ p, Within m (insertN E s p a n) := by
  induction n with
  | zero => exact fun _ => .pure _
  | succ n ih =>
    intro p
    unfold insertN
    repeat' (first | with_reducible exact ih _ | with_reducible exact w_emplace hF _ _ _ | within1)

theorem w_insertRange (s : Ptr) (ts : List Ptr) : ∀ p, Within m (insertRange E s p ts) := by
  induction ts with
  | nil => exact fun _ => .pure _
  | cons t ts ih =>
    intro p
    unfold insertRange
    repeat' (first | with_reducible exact ih _ | with_reducible exact w_emplace hF _ _ _ | within1)

theorem w_pushBack (s : Ptr) (a : Arg) : Within m (pushBack E s a) := by
  unfold pushBack
  repeat' (first | with_reducible exact w_emplace hF _ _ _ | within1)

theorem w_pushFront (s : Ptr) (a : Arg) : Within m (pushFront E s a) := by
  unfold pushFront
  repeat' (first | with_reducible exact w_emplace hF _ _ _ | within1)

theorem w_assignLoop (s : Ptr) (a : Arg) (n : Nat) : Within m (assignLoop E s a n) := by
  induction n with
  | zero => exact .pure _
  | succ n ih =>
    unfold assignLoop
    repeat' (first | with_reducible exact ih | with_reducible exact w_pushBack hF _ _ | within1)

theorem w_assignValsLoop (s : Ptr) (ts : List Ptr) : Within m (assignValsLoop E s ts) := by
  induction ts with
  | nil => exact .pure _
  | cons t ts ih =>
    unfold assignValsLoop
    repeat' (first | with_reducible exact ih | with_reducible exact w_pushBack hF _ _ | within1)

theorem w_assignItLoop (s f l : Ptr) : Within m (assignItLoop E s f l) := by
  revert f
  refine assignItLoop.fixpoint_induct E s l (motive := fun g => ∀ p, Within m (g p)) Within.admissible1 ?_
  intro g ih p
  repeat' (first | with_reducible exact ih _ | with_reducible exact w_pushBack hF _ _ | within1)


theorem w_assignN (s : Ptr) (n : Nat) (a : Arg) : Within m (assignN E s n a) := by
  unfold assignN
  repeat' (first | with_reducible exact w_assignLoop hF _ _ _ | with_reducible exact w_destroyList hF _ | within1)

theorem w_assignVals (s : Ptr) (ts : List Ptr) : Within m (assignVals E s ts) := by
  unfold assignVals
  repeat' (first | with_reducible exact w_assignValsLoop hF _ _ | with_reducible exact w_destroyList hF _ | within1)

theorem w_assignIt (s f l : Ptr) : Within m (assignIt E s f l) := by
  unfold assignIt
  repeat' (first | with_reducible exact w_assignItLoop hF _ _ _ | with_reducible exact w_destroyList hF _ | within1)

theorem w_copyNothrow (s t : Ptr) : Within m (copyNothrow E s t) := by
  unfold copyNothrow
  repeat' (first | with_reducible exact w_assignIt hF _ _ _ | within1)

/-- A call constructs at most one element for every node that it requests. -/
theorem w_exec (c : Call S) (hL : ∀ g, c.compares g → Looks m g) : Within m (exec E c) := by
  cases c <;> unfold exec
  case merge less s t => exact .bind (w_merge (hL _ rfl) _ _) fun _ => .pure _
  case sort less s => exact .bind (w_sort hF (hL _ rfl) _) fun _ => .pure _
  all_goals
    repeat' (first | with_reducible exact w_emplace hF _ _ _ | with_reducible exact w_insertN hF _ _ _ _ | with_reducible exact w_insertRange hF _ _ _ |
      with_reducible exact w_erase hF _ _ | with_reducible exact w_eraseRange hF _ _ _ | with_reducible exact w_pushBack hF _ _ | with_reducible exact w_pushFront hF _ _ |
      with_reducible exact w_popBack hF _ | with_reducible exact w_popFront hF _ | with_reducible exact w_clear hF _ | with_reducible exact w_assignN hF _ _ _ |
      with_reducible exact w_assignVals hF _ _ | with_reducible exact w_assignIt hF _ _ _ | with_reducible exact w_copyNothrow hF _ _ |
      with_reducible exact w_moveAssign hF _ _ | with_reducible exact w_destroyList hF _ | within1)

end

variable {E : Elem S A X} {s s' : ST S} {c : Call S} {n : Nat} {r : LC.Res} {m : S → Nat}

/-- C133 (lists): a call that adds `n` positions (`LC.Creates`) constructs at most `n` elements, also if it fails; the calls that add
none — erasures, moves, `swap`, `splice`, `merge`, `sort` — construct none.  `m` is a number that counts constructions; comparators
construct no elements. -/
theorem listOf_constructions (hF : Counts E.toElemOps m) (hL : ∀ g, c.compares g → Looks m g) (hr : Reach E s) (hv : Valid E s c)
    (hc : LC.Creates s.o c.addr n) (h : Runs (exec E.toElemOps c) (ready s) r s') : m s'.i ≤ m s.i + n := by
  have h1 : m s'.i + s.o.nAlloc ≤ m s.i + s'.o.nAlloc := w_exec hF c hL (ready s) _ _ h
  have h2 := (listOf_requests hr hv hc h).1
  omega

/-! ### Lists of boxes -/

/-- The comparison of boxes makes no boxes. -/
theorem looks_box : Looks VO.Boxes.next Demo.boxLess := by
  intro a b i r i' h
  unfold Runs Demo.boxLess at h
  split at h <;> cases h
  exact Nat.le_refl _

open Demo in
/-- In the list of boxes `v`: moving a box to its front constructs one box, copying a box to its end although no more copies can be
made constructs at most one, and sorting it constructs none. -/
example : (s4.i.next = s3.i.next + 1) ∧ (s6.o.err ≠ none ∧ s6.i.next ≤ s5.i.next + 1) ∧ s7.i.next ≤ s6.i.next := by
  obtain ⟨_, h3⟩ := run3
  obtain ⟨_, h5⟩ := run5
  obtain ⟨_, h6⟩ := run6
  have k3 : s4.i.next ≤ s3.i.next + 1 := listOf_constructions (n := 1) VO.counts_box (fun _ h => by cases h) r3 v3 rfl h3
  have e3 : s3.i.next + 1 ≤ s4.i.next := by decide +kernel
  exact ⟨Nat.le_antisymm k3 e3, ⟨by decide +kernel, listOf_constructions (n := 1) VO.counts_box (fun _ h => by cases h) r5 v5 rfl h5⟩,
    listOf_constructions (n := 0) VO.counts_box (fun _ h => h ▸ looks_box) r6 v6 rfl h6⟩

end Nestl.LO
