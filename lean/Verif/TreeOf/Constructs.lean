import Verif.NodeOf.Within
import Verif.TreeOf.Refs
import Verif.TreeOf.Asks
set_option autoImplicit false
/-
Property theorems about the elements that calls of trees of objects construct (C133).
-/
namespace Nestl.TO
open Nestl.VO (Elem ElemOps Counts)
open Nestl.NO (NS Arg onO onI failed construct destroyElem compare Within Looks)
open Nestl.RB (TNode)
open Nestl.Full (AddsNothing AlwaysBuilds InsertsInto)
variable {S A X : Type}

macro_rules | `(tactic| within1) => `(tactic| with_reducible refine Within.link (by links))

theorem w_createNode {m : S → Nat} {E : ElemOps S} (hF : Counts E m) (s : Ptr) (a : Arg) : Within m (createNode E s a) := by
  unfold createNode
  exact .bind (.link (.rd _)) fun c => .node hF fun n => .bind .failed fun _ => .ite
    (.bind (.link (by links)) fun _ => .pure _) (.pure _)

theorem w_tryCtor {m : S → Nat} : Within m (onO tryCtor : M (ST S) Bool) := by
  intro s r s' h
  obtain ⟨o, h1, rfl⟩ := NO.of_onO h
  unfold Runs tryCtor at h1
  dsimp only at h1
  split at h1 <;> cases h1 <;> exact Nat.le_refl _

section
variable {m : S → Nat}

theorem w_node (p : Ptr) : Within m (node p) := .link (by links)
theorem w_keyOf (p : Ptr) : Within m (keyOf p) := .link (by links)
macro_rules | `(tactic| within1) => `(tactic| with_reducible exact w_node _)
macro_rules | `(tactic| within1) => `(tactic| with_reducible exact w_keyOf _)

/-! ### Lookup -/

section
variable {less : Ptr → Ptr → M S Bool} (hL : Looks m less) (k : Ptr)
include hL

theorem w_insDescend (x y : Ptr) (b : Bool) : Within m (insDescend less k x y b) := by
  revert x y b
  refine insDescend.fixpoint_induct less k (motive := fun g => ∀ x y b, Within m (g x y b)) Within.admissible3 ?_
  intro g ih x y b
  repeat' (first | with_reducible exact ih _ _ _ | within1)
macro_rules | `(tactic| within1) => `(tactic| with_reducible exact w_insDescend ‹Looks _ _› _ _ _ _)

theorem w_getInsertUniquePos (hdr : Ptr) : Within m (getInsertUniquePos less hdr k) := by
  unfold getInsertUniquePos; within
macro_rules | `(tactic| within1) => `(tactic| with_reducible exact w_getInsertUniquePos ‹Looks _ _› _ _)

theorem w_lowerBound (x y : Ptr) : Within m (lowerBound less k x y) := by
  revert x y
  refine lowerBound.fixpoint_induct less k (motive := fun g => ∀ x y, Within m (g x y)) Within.admissible2 ?_
  intro g ih x y
  repeat' (first | with_reducible exact ih _ _ | within1)
macro_rules | `(tactic| within1) => `(tactic| with_reducible exact w_lowerBound ‹Looks _ _› _ _ _)

theorem w_upperBound (x y : Ptr) : Within m (upperBound less k x y) := by
  revert x y
  refine upperBound.fixpoint_induct less k (motive := fun g => ∀ x y, Within m (g x y)) Within.admissible2 ?_
  intro g ih x y
  repeat' (first | with_reducible exact ih _ _ | within1)
macro_rules | `(tactic| within1) => `(tactic| with_reducible exact w_upperBound ‹Looks _ _› _ _ _)

theorem w_equalRangeLoop (x y : Ptr) : Within m (equalRangeLoop less k x y) := by
  revert x y
  refine equalRangeLoop.fixpoint_induct less k (motive := fun g => ∀ x y, Within m (g x y)) Within.admissible2 ?_
  intro g ih x y
  repeat' (first | with_reducible exact ih _ _ | within1)
macro_rules | `(tactic| within1) => `(tactic| with_reducible exact w_equalRangeLoop ‹Looks _ _› _ _ _)

theorem w_equalRange (hdr : Ptr) : Within m (equalRange less hdr k) := by unfold equalRange; within
macro_rules | `(tactic| within1) => `(tactic| with_reducible exact w_equalRange ‹Looks _ _› _ _)

theorem w_find (hdr : Ptr) : Within m (find less hdr k) := by unfold find; within
theorem w_getInsertHintUniquePos (hdr pos : Ptr) : Within m (getInsertHintUniquePos less hdr pos k) := by
  unfold getInsertHintUniquePos; within
theorem w_getInsertEqualPos (hdr : Ptr) : Within m (getInsertEqualPos less hdr k) := by unfold getInsertEqualPos; within
macro_rules | `(tactic| within1) => `(tactic| with_reducible exact w_getInsertEqualPos ‹Looks _ _› _ _)
theorem w_getInsertHintEqualPos (hdr pos : Ptr) : Within m (getInsertHintEqualPos less hdr pos k) := by
  unfold getInsertHintEqualPos; within

theorem w_lowerDescend (x y : Ptr) : Within m (lowerDescend less k x y) := by
  revert x y
  refine lowerDescend.fixpoint_induct less k (motive := fun g => ∀ x y, Within m (g x y)) Within.admissible2 ?_
  intro g ih x y
  repeat' (first | with_reducible exact ih _ _ | within1)
macro_rules | `(tactic| within1) => `(tactic| with_reducible exact w_find ‹Looks _ _› _ _)
macro_rules | `(tactic| within1) => `(tactic| with_reducible exact w_getInsertHintUniquePos ‹Looks _ _› _ _ _)
macro_rules | `(tactic| within1) => `(tactic| with_reducible exact w_getInsertHintEqualPos ‹Looks _ _› _ _ _)
macro_rules | `(tactic| within1) => `(tactic| with_reducible exact w_lowerDescend ‹Looks _ _› _ _ _)

theorem w_insertNode (hdr x p z : Ptr) : Within m (insertNode less hdr x p z) := by unfold insertNode; within
theorem w_insertLowerNode (hdr p z : Ptr) : Within m (insertLowerNode less hdr p z) := by unfold insertLowerNode; within
macro_rules | `(tactic| within1) => `(tactic| with_reducible exact w_insertNode ‹Looks _ _› _ _ _ _)
macro_rules | `(tactic| within1) => `(tactic| with_reducible exact w_insertLowerNode ‹Looks _ _› _ _ _)
theorem w_insertEqualLowerNode (hdr z : Ptr) : Within m (insertEqualLowerNode less hdr z) := by unfold insertEqualLowerNode; within
macro_rules | `(tactic| within1) => `(tactic| with_reducible exact w_insertEqualLowerNode ‹Looks _ _› _ _)

end

/-! ### Functions that destroy elements -/

section
variable {E : ElemOps S} (hF : Counts E m)
include hF

theorem w_destroyNode (hdr p : Ptr) : Within m (destroyNode E hdr p) := by
  unfold destroyNode
  repeat' (first | with_reducible exact Within.destroyElem hF _ | within1)

theorem w_eraseAux (hdr z : Ptr) : Within m (eraseAux E hdr z) := by
  unfold eraseAux
  repeat' (first | with_reducible exact w_destroyNode hF _ _ | within1)

theorem w_eraseIter (hdr z : Ptr) : Within m (eraseIter E hdr z) := by
  unfold eraseIter
  repeat' (first | with_reducible exact w_eraseAux hF _ _ | within1)

theorem w_mErase (hdr x : Ptr) : Within m (mErase E hdr x) := by
  revert x
  refine mErase.fixpoint_induct E hdr (motive := fun g => ∀ x, Within m (g x)) Within.admissible1 ?_
  intro g ih x
  repeat' (first | with_reducible exact ih _ | with_reducible exact w_destroyNode hF _ _ | within1)

theorem w_clear (hdr : Ptr) : Within m (clear E hdr) := by
  unfold clear
  repeat' (first | with_reducible exact w_mErase hF _ _ | within1)

theorem w_eraseRangeLoop (hdr f l : Ptr) : Within m (eraseRangeLoop E hdr f l) := by
  revert f
  refine eraseRangeLoop.fixpoint_induct E hdr l (motive := fun g => ∀ x, Within m (g x)) Within.admissible1 ?_
  intro g ih x
  repeat' (first | with_reducible exact ih _ | with_reducible exact w_eraseIter hF _ _ | within1)

theorem w_eraseRange (hdr f l : Ptr) : Within m (eraseRange E hdr f l) := by
  unfold eraseRange
  repeat' (first | with_reducible exact w_clear hF _ | with_reducible exact w_eraseRangeLoop hF _ _ _ | within1)

theorem w_eraseKey {less : Ptr → Ptr → M S Bool} (hL : Looks m less) (hdr k : Ptr) : Within m (eraseKey less E hdr k) := by
  unfold eraseKey
  repeat' (first | with_reducible exact w_eraseRange hF _ _ _ | within1)

theorem w_eraseKeys {less : Ptr → Ptr → M S Bool} (hL : Looks m less) (hdr : Ptr) (ks : List Ptr) : Within m (eraseKeys less E hdr ks) := by
  induction ks with
  | nil => exact .pure _
  | cons k ks ih => exact .bind (w_eraseKey hF hL _ _) fun _ => ih

theorem w_moveAssign (b : Bool) (hdr src : Ptr) : Within m (moveAssign E b hdr src) := by
  unfold moveAssign
  repeat' (first | with_reducible exact w_clear hF _ | within1)

theorem w_destroyTree (hdr : Ptr) : Within m (destroyTree E hdr) := by
  unfold destroyTree
  repeat' (first | with_reducible exact w_mErase hF _ _ | with_reducible exact Within.onO (.dropObj _) | within1)

end

/-! ### Functions that construct elements -/

section
variable {E : ElemOps S} (hF : Counts E m)
include hF

section
variable {less : Ptr → Ptr → M S Bool} (hL : Looks m less)
include hL

theorem w_insert_ (hdr x p : Ptr) (a : Arg) : Within m (insert_ less E hdr x p a) := by
  unfold insert_
  repeat' (first | with_reducible exact w_createNode hF _ _ | within1)

theorem w_insertUnique (hdr : Ptr) (a : Arg) : Within m (insertUnique less E hdr a) := by
  unfold insertUnique
  repeat' (first | with_reducible exact w_insert_ hF hL _ _ _ _ | within1)

theorem w_insertUniqueAt (hdr pos : Ptr) (a : Arg) : Within m (insertUniqueAt less E hdr pos a) := by
  unfold insertUniqueAt
  repeat' (first | with_reducible exact w_insert_ hF hL _ _ _ _ | within1)

theorem w_insertLower (hdr p : Ptr) (a : Arg) : Within m (insertLower less E hdr p a) := by
  unfold insertLower
  repeat' (first | with_reducible exact w_createNode hF _ _ | within1)

theorem w_insertEqualLower (hdr : Ptr) (a : Arg) : Within m (insertEqualLower less E hdr a) := by
  unfold insertEqualLower
  repeat' (first | with_reducible exact w_insertLower hF hL _ _ _ | within1)

theorem w_emplaceEqual (hdr : Ptr) (a : Arg) : Within m (emplaceEqual less E hdr a) := by
  unfold emplaceEqual
  repeat' (first | with_reducible exact w_createNode hF _ _ | within1)

theorem w_emplaceHintEqual (hdr pos : Ptr) (a : Arg) : Within m (emplaceHintEqual less E hdr pos a) := by
  unfold emplaceHintEqual
  repeat' (first | with_reducible exact w_createNode hF _ _ | within1)

end

theorem w_cloneNode (hdr x : Ptr) : Within m (cloneNode E hdr x) := by
  unfold cloneNode
  repeat' (first | with_reducible exact w_createNode hF _ _ | within1)


theorem w_emplaceUnique {less : Ptr → Ptr → M S Bool} (hL : Looks m less) (hdr : Ptr) (a : Arg) : Within m (emplaceUnique less E hdr a) := by
  unfold emplaceUnique
  repeat' (first | with_reducible exact w_createNode hF _ _ | with_reducible exact w_destroyNode hF _ _ | within1)

theorem w_emplaceHintUnique {less : Ptr → Ptr → M S Bool} (hL : Looks m less) (hdr pos : Ptr) (a : Arg) : Within m (emplaceHintUnique less E hdr pos a) := by
  unfold emplaceHintUnique
  repeat' (first | with_reducible exact w_createNode hF _ _ | with_reducible exact w_destroyNode hF _ _ | within1)

theorem w_mCopy (hdr x p : Ptr) : Within m (mCopy E hdr x p) := by
  have key := mCopy.fixpoint_induct E hdr (fun g => ∀ x p, Within m (g x p)) (fun g => ∀ t p x, Within m (g t p x)) Within.admissible2 Within.admissible3
    (by
      intro f g hf hg x p
      repeat' (first | with_reducible exact hf _ _ | with_reducible exact hg _ _ _ | with_reducible exact w_cloneNode hF _ _ |
        with_reducible exact w_mErase hF _ _ | within1))
    (by
      intro f g hf hg t p x
      repeat' (first | with_reducible exact hf _ _ | with_reducible exact hg _ _ _ | with_reducible exact w_cloneNode hF _ _ |
        with_reducible exact w_mErase hF _ _ | within1))
  exact key x p


theorem w_copyNothrow (b : Bool) (hdr src : Ptr) : Within m (copyNothrow E b hdr src) := by
  unfold copyNothrow
  repeat' (first | with_reducible exact w_tryCtor | with_reducible exact w_clear hF _ | with_reducible exact w_mCopy hF _ _ _ | within1)

/-- A call constructs at most one element for every node that it requests. -/
theorem w_exec (c : Call S A) (hL : ∀ o, c.ord = some o → Looks m o.less) : Within m (exec E c) := by
  rcases c with _ | ⟨ord, h, s, a⟩ | ⟨ord, s, t⟩ | ⟨ord, s, ts⟩ | _ | _ | _ | ⟨ord, s, t⟩ | _ | _ | _ | _ | _
  rotate_left
  · have hL' := hL ord rfl
    cases h <;> unfold exec
    all_goals
      repeat' (first | with_reducible exact w_insertUnique hF hL' _ _ | with_reducible exact w_insertUniqueAt hF hL' _ _ _ |
        with_reducible exact w_emplaceUnique hF hL' _ _ | with_reducible exact w_emplaceHintUnique hF hL' _ _ _ |
        with_reducible exact w_emplaceEqual hF hL' _ _ | with_reducible exact w_insertEqualLower hF hL' _ _ |
        with_reducible exact w_emplaceHintEqual hF hL' _ _ _ | within1)
  · have hL := hL ord rfl
    exact .bind (w_eraseKey hF hL _ _) fun _ => .pure _
  · have hL := hL ord rfl
    exact .bind (w_eraseKeys hF hL _ _) fun _ => .pure _
  rotate_left 3
  · have hL := hL ord rfl
    exact .bind (w_find hL _ _) fun _ => .pure _
  all_goals
    unfold exec
    repeat' (first | with_reducible exact w_eraseIter hF _ _ |
      with_reducible exact w_eraseRange hF _ _ _ | with_reducible exact w_clear hF _ | with_reducible exact w_copyNothrow hF _ _ _ |
      with_reducible exact w_moveAssign hF _ _ _ | with_reducible exact w_destroyTree hF _ | within1)

end

end

variable {E : Elem S A X} {s s' : ST S} {c : Call S A} {r : Res} {m : S → Nat} {t : Ptr} {L L' : List (Ptr × Ptr)}

/-- C133 (trees): calls that neither insert an element nor copy another tree construct no elements.  `m` is a number that counts
constructions; comparators construct no elements. -/
theorem treeOf_constructions_none (hF : Counts E.toElemOps m) (hL : ∀ o, c.ord = some o → Looks m o.less) (hr : Reach E s)
    (hv : Valid E s c) (hc : AddsNothing c.addr) (h : Runs (exec E.toElemOps c) (ready s) r s') : m s'.i ≤ m s.i := by
  have h1 : m s'.i + s.o.nAlloc ≤ m s.i + s'.o.nAlloc := w_exec hF c hL (ready s) _ _ h
  have h2 := (treeOf_requests_nothing hr hv hc h).1
  omega

/-- C133 (trees): the insertion of an equal key and every emplacement construct at most one element, also if they fail. -/
theorem treeOf_constructions_one (hF : Counts E.toElemOps m) (hL : ∀ o, c.ord = some o → Looks m o.less) (hr : Reach E s)
    (hv : Valid E s c) (hc : AlwaysBuilds c.addr) (h : Runs (exec E.toElemOps c) (ready s) r s') : m s'.i ≤ m s.i + 1 := by
  have h1 : m s'.i + s.o.nAlloc ≤ m s.i + s'.o.nAlloc := w_exec hF c hL (ready s) _ _ h
  have h2 := (treeOf_requests_one hr hv hc h).1
  omega

/-- C133 (trees): `insert` without or with a hint constructs at most one element; if it succeeds it constructs one only if the tree
then has one element more: if an equivalent key is there, nothing is constructed. -/
theorem treeOf_constructions_insert (hF : Counts E.toElemOps m) (hL : ∀ o, c.ord = some o → Looks m o.less) (hr : Reach E s)
    (hv : Valid E s c) (hc : InsertsInto t c.addr) (hO : Objs s t L) (h : Runs (exec E.toElemOps c) (ready s) r s')
    (hO' : Objs s' t L') : m s'.i ≤ m s.i + 1 ∧ (s'.o.err = none → m s'.i + L.length ≤ m s.i + L'.length) := by
  have h1 : m s'.i + s.o.nAlloc ≤ m s.i + s'.o.nAlloc := w_exec hF c hL (ready s) _ _ h
  have h2 := treeOf_requests_insert hr hv hc hO h hO'
  exact ⟨by have := h2.1; omega, fun e => by have := h2.2 e; omega⟩

/-- C133 (trees): `copy_nothrow` constructs at most as many elements as the source has, also if it fails. -/
theorem treeOf_constructions_copy {prop : Bool} {d : Ptr} (hF : Counts E.toElemOps m) (hr : Reach E s)
    (hv : Valid E s (.copy prop d t : Call S A)) (hne : d ≠ t) (hO : Objs s t L)
    (h : Runs (exec E.toElemOps (.copy prop d t : Call S A)) (ready s) r s') : m s'.i ≤ m s.i + L.length := by
  have h1 : m s'.i + s.o.nAlloc ≤ m s.i + s'.o.nAlloc := w_exec hF (.copy prop d t) (fun _ h => by cases h) (ready s) _ _ h
  have h2 := (treeOf_requests_copy hr hv hne hO h).1
  omega

/-! ### Trees of boxes -/

/-- The comparison of boxes makes no boxes. -/
theorem looks_box : Looks VO.Boxes.next Demo.ord.less := by
  intro a b i r i' h
  unfold Runs at h
  simp only [Demo.ord, LO.Demo.boxLess] at h
  split at h <;> cases h
  exact Nat.le_refl _

open Demo in
/-- Erasing an element of `v` constructs nothing. -/
example : ∃ r s', Runs (exec VO.boxOps (.eraseAt v (.dyn 1) : Call VO.Boxes Nat)) (ready s5) r s' ∧ s'.i.next ≤ s5.i.next := by
  obtain ⟨B, hB, -⟩ := r5.inv.shows
  obtain ⟨r, s', B', h1, -⟩ := r5.inv.call hB v5e (c' := .multi (.base (.eraseAt v (.dyn 1)))) rfl
  exact ⟨r, s', h1, treeOf_constructions_none VO.counts_box (fun _ h => by cases h) r5 v5e trivial h1⟩

open Demo in
/-- The insertion of an equal key into `u` whose copy fails has constructed at most one element. -/
example : s6.o.err ≠ none ∧ s6.i.next ≤ s5.i.next + 1 :=
  ⟨by decide +kernel, treeOf_constructions_one VO.counts_box (fun _ h => by cases h; exact looks_box) r5 v5 trivial run5⟩

open Demo in
/-- Moving a box into `v` constructs one element.  Inserting a key that is there constructs none. -/
example : s4.i.next = s3.i.next + 1 ∧ (go VO.boxOps (.insert ord .plain v (.obj (.stk 2))) s3).i.next ≤ s3.i.next := by
  have h : s4.i.next ≤ s3.i.next + 1 :=
    (treeOf_constructions_insert VO.counts_box (fun _ h => by cases h; exact looks_box) r3 v3 rfl o3 run3 o4).1
  have e : s3.i.next + 1 ≤ s4.i.next := by decide +kernel
  have h' := (treeOf_constructions_insert VO.counts_box (fun _ h => by cases h; exact looks_box) r3 v3' rfl o3 run3' (L' := [(.dyn 0, .stk 2)])
    (objs (tree1 (o := 0) (by decide +kernel) (by decide +kernel) ⟨_, rfl⟩))).2 (by decide +kernel)
  simp only [List.length_cons, List.length_nil] at h'
  exact ⟨Nat.le_antisymm h e, by omega⟩

open Demo in
/-- Copying `v`, which has two elements, over `u` constructs at most two. -/
example : ∃ r s', Runs (exec VO.boxOps (.copy false u v : Call VO.Boxes Nat)) (ready s5) r s' ∧ s'.i.next ≤ s5.i.next + 2 := by
  obtain ⟨B, hB, -⟩ := r5.inv.shows
  obtain ⟨r, s', B', h1, -⟩ := r5.inv.call hB v5'' (c' := .multi (.base (.copy false u v))) rfl
  exact ⟨r, s', h1, treeOf_constructions_copy VO.counts_box r5 v5'' (by decide) o5 h1⟩

end Nestl.TO
