import Verif.RBTree.Readers
import Verif.RBTree.ModelEqual
import Verif.Alias.Base
set_option autoImplicit false
/-
Tree functions whose key or value argument is a reference to an element of a tree, possibly of the tree that is modified:
`s.erase(*it)`, `t.m_emplace_equal(err, *t.begin())`.  The argument is a `const Key&` or `const value_type&`; the element is read
whenever the function uses its argument, whatever has happened to the tree before.  `p` is the node of the element.  `rbt.hpp`
abbreviates nestl/implementation/detail/red_black_tree.hpp.
-/
namespace Nestl.RB
variable {K : Type}

/-- `construct_val` from a reference: rbt.hpp:102-106; the copy constructor reads its argument (class_operations.hpp:32-37). -/
def constructRef (l p : Ptr) : M (W K) Unit := do
  let v ← keyOf p
  constructVal l v

/-- `m_create_node`: rbt.hpp:702-722. -/
def createNodeRef (hdr p : Ptr) : M (W K) Ptr := do
  let a := (← rd hdr).owner
  let l ← allocCell fun junk => { junk with val := none, owner := a, count := 0 }
  if (← hasErr) then pure .null else do
  constructRef l p
  if (← hasErr) then
    putNode hdr l          -- ~guard
    pure .null
  else
    pure l                 -- guard.release()

/-- `m_insert_`: rbt.hpp:1405-1422; `q` is the parent of the new node. -/
def insertRef (lt : K → K → Bool) (hdr x q p : Ptr) : M (W K) Ptr := do
  let insertLeft ← (if x ≠ .null then pure true else if q = hdr then pure true
    else do cmp lt (← keyOf p) (← keyOf q))
  let l ← createNodeRef hdr p
  if (← hasErr) then pure hdr else do
  insertAndRebalance insertLeft l q hdr
  setCount hdr (· + 1)
  pure l

/-- Descent of `m_get_insert_unique_pos`: rbt.hpp:1733-1740. -/
def insDescendRef (lt : K → K → Bool) (p x y : Ptr) (comp : Bool) : M (W K) (Ptr × Bool) := do
  if x ≠ .null then
    let c ← cmp lt (← keyOf p) (← keyOf x)
    let n ← rd x
    insDescendRef lt p (if c then n.left else n.right) x c
  else pure (y, comp)
partial_fixpoint

/-- `m_get_insert_unique_pos`: rbt.hpp:1726-1758. -/
def getInsertUniquePosRef (lt : K → K → Bool) (hdr p : Ptr) : M (W K) (Ptr × Ptr) := do
  let (y, comp) ← insDescendRef lt p (← rd hdr).parent hdr true
  if comp then
    if y = (← rd hdr).left then pure (.null, y)
    else
      let j ← decrement y
      if (← cmp lt (← keyOf j) (← keyOf p)) then pure (.null, y) else pure (j, .null)
  else
    if (← cmp lt (← keyOf y) (← keyOf p)) then pure (.null, y) else pure (y, .null)

/-- `m_insert_unique`: rbt.hpp:1776-1791; `set::insert_nothrow`: set.hpp:312-326. -/
def insertUniqueRef (lt : K → K → Bool) (hdr p : Ptr) : M (W K) (Ptr × Bool) := do
  let (x, q) ← getInsertUniquePosRef lt hdr p
  if q ≠ .null then
    let pos ← insertRef lt hdr x q p
    pure (pos, true)
  else pure (x, false)

/-- `m_get_insert_hint_unique_pos`: rbt.hpp:1802-1874. -/
def getInsertHintUniquePosRef (lt : K → K → Bool) (hdr pos p : Ptr) : M (W K) (Ptr × Ptr) := do
  if pos = hdr then
    if 0 < (← size hdr) then
      if (← cmp lt (← keyOf (← rd hdr).right) (← keyOf p)) then pure (.null, (← rd hdr).right)
      else getInsertUniquePosRef lt hdr p
    else getInsertUniquePosRef lt hdr p
  else if (← cmp lt (← keyOf p) (← keyOf pos)) then
    if pos = (← rd hdr).left then pure ((← rd hdr).left, (← rd hdr).left)
    else
      let before ← decrement pos
      if (← cmp lt (← keyOf before) (← keyOf p)) then
        if (← rd before).right = .null then pure (.null, before) else pure (pos, pos)
      else getInsertUniquePosRef lt hdr p
  else if (← cmp lt (← keyOf pos) (← keyOf p)) then
    if pos = (← rd hdr).right then pure (.null, (← rd hdr).right)
    else
      let after ← increment pos
      if (← cmp lt (← keyOf p) (← keyOf after)) then
        if (← rd pos).right = .null then pure (.null, pos) else pure (after, after)
      else getInsertUniquePosRef lt hdr p
  else pure (pos, .null)

/-- `m_insert_unique_at`: rbt.hpp:1877-1890. -/
def insertUniqueAtRef (lt : K → K → Bool) (hdr pos p : Ptr) : M (W K) Ptr := do
  let (x, q) ← getInsertHintUniquePosRef lt hdr pos p
  if q ≠ .null then insertRef lt hdr x q p else pure x

/-- `m_emplace_unique`: rbt.hpp:2012-2032. -/
def emplaceUniqueRef (lt : K → K → Bool) (hdr p : Ptr) : M (W K) (Ptr × Bool) := do
  let z ← createNodeRef hdr p
  if (← hasErr) then pure (hdr, false) else do
  let (x, q) ← getInsertUniquePos lt hdr (← keyOf z)
  if q ≠ .null then
    let it ← insertNode lt hdr x q z
    pure (it, true)
  else
    destroyNode hdr z
    pure (x, false)

/-- `m_emplace_hint_unique`: rbt.hpp:2059-2085. -/
def emplaceHintUniqueRef (lt : K → K → Bool) (hdr pos p : Ptr) : M (W K) Ptr := do
  let z ← createNodeRef hdr p
  if (← hasErr) then pure hdr else do
  let (x, q) ← getInsertHintUniquePos lt hdr pos (← keyOf z)
  if q ≠ .null then insertNode lt hdr x q z
  else
    destroyNode hdr z
    pure x

/-- `m_emplace_equal`: rbt.hpp:2034-2056. -/
def emplaceEqualRef (lt : K → K → Bool) (hdr p : Ptr) : M (W K) Ptr := do
  let z ← createNodeRef hdr p
  if (← hasErr) then pure hdr else do
  let (x, q) ← getInsertEqualPos lt hdr (← keyOf z)
  insertNode lt hdr x q z

/-- `m_emplace_hint_equal`: rbt.hpp:2088-2114. -/
def emplaceHintEqualRef (lt : K → K → Bool) (hdr pos p : Ptr) : M (W K) Ptr := do
  let z ← createNodeRef hdr p
  if (← hasErr) then pure hdr else do
  let (x, q) ← getInsertHintEqualPos lt hdr pos (← keyOf z)
  if q ≠ .null then insertNode lt hdr x q z
  else insertEqualLowerNode lt hdr z

/-- The descent of `m_insert_equal_lower`: rbt.hpp:1448-1454. -/
def lowerDescendRef (lt : K → K → Bool) (p x y : Ptr) : M (W K) Ptr := do
  if x ≠ .null then
    let c ← cmp lt (← keyOf x) (← keyOf p)
    let n ← rd x
    lowerDescendRef lt p (if !c then n.left else n.right) x
  else pure y
partial_fixpoint

/-- `m_insert_lower`: rbt.hpp:1424-1441. -/
def insertLowerRef (lt : K → K → Bool) (hdr q p : Ptr) : M (W K) Ptr := do
  let insertLeft ← (if q = hdr then pure true else do pure (!(← cmp lt (← keyOf q) (← keyOf p))))
  let l ← createNodeRef hdr p
  if (← hasErr) then pure hdr else do
  insertAndRebalance insertLeft l q hdr
  setCount hdr (· + 1)
  pure l

/-- `m_insert_equal_lower`: rbt.hpp:1443-1456. -/
def insertEqualLowerRef (lt : K → K → Bool) (hdr p : Ptr) : M (W K) Ptr := do
  let y ← lowerDescendRef lt p (← rd hdr).parent hdr
  insertLowerRef lt hdr y p

/-- `m_lower_bound`: rbt.hpp:1552-1586. -/
def lowerBoundRef (lt : K → K → Bool) (p x y : Ptr) : M (W K) Ptr := do
  if x ≠ .null then
    if !(← cmp lt (← keyOf x) (← keyOf p)) then
      lowerBoundRef lt p (← rd x).left x
    else
      lowerBoundRef lt p (← rd x).right y
  else pure y
partial_fixpoint

/-- `m_upper_bound`: rbt.hpp:1588-1622. -/
def upperBoundRef (lt : K → K → Bool) (p x y : Ptr) : M (W K) Ptr := do
  if x ≠ .null then
    if (← cmp lt (← keyOf p) (← keyOf x)) then
      upperBoundRef lt p (← rd x).left x
    else
      upperBoundRef lt p (← rd x).right y
  else pure y
partial_fixpoint

/-- Loop of `equal_range`: rbt.hpp:1626-1650. -/
def equalRangeLoopRef (lt : K → K → Bool) (p x y : Ptr) : M (W K) (Ptr × Ptr) := do
  if x ≠ .null then
    if (← cmp lt (← keyOf x) (← keyOf p)) then
      equalRangeLoopRef lt p (← rd x).right y
    else if (← cmp lt (← keyOf p) (← keyOf x)) then
      equalRangeLoopRef lt p (← rd x).left x
    else
      let l ← lowerBoundRef lt p (← rd x).left x
      let u ← upperBoundRef lt p (← rd x).right y
      pure (l, u)
  else pure (y, y)
partial_fixpoint

/-- `equal_range(const Key&)`: rbt.hpp:1624-1678. -/
def equalRangeRef (lt : K → K → Bool) (hdr p : Ptr) : M (W K) (Ptr × Ptr) := do
  equalRangeLoopRef lt p (← rd hdr).parent hdr

/-- `find(const Key&)`: rbt.hpp:2190-2204; set.hpp:344-357. -/
def findRef (lt : K → K → Bool) (hdr p : Ptr) : M (W K) Ptr := do
  let j ← lowerBoundRef lt p (← rd hdr).parent hdr
  if j = hdr then pure hdr
  else if (← cmp lt (← keyOf p) (← keyOf j)) then pure hdr else pure j

/-- `erase(const Key&)`: rbt.hpp:2170-2178; set.hpp:335-340. -/
def eraseKeyRef (lt : K → K → Bool) (hdr p : Ptr) : M (W K) Nat := do
  let (f, l) ← equalRangeRef lt hdr p
  let old ← size hdr
  let _ ← eraseRange hdr f l
  pure (old - (← size hdr))

/-! ### The node `p` during these calls -/

/-- The node `p` holds the key `k`. -/
abbrev Holds (p : Ptr) (k : K) : W K → Prop := CellIs p fun c => c.val = some k

variable {p : Ptr} {k : K} {lt : K → K → Bool}

theorem runs_keyOf {w : W K} (h : Holds p k w) : Runs (keyOf p) w k w := by
  obtain ⟨h0, c, hc, hv⟩ := h
  have : wp (keyOf p : M (W K) K) w fun a w' => a = k ∧ w' = w := by
    unfold keyOf
    rw [wp_bind, wp_rd hc h0, hv]
    exact ⟨rfl, rfl⟩
  obtain ⟨a, w', h, rfl, rfl⟩ := this.runs
  exact h

section
variable {α : Type} {f : K → M (W K) α} {m : M (W K) α}

theorem agree_key (h : Agree (Holds p k) (f k) m) : Agree (Holds p k) (keyOf p >>= f) m :=
  fun w hi => (run_bind (runs_keyOf hi)).trans (h w hi)

theorem Below.keyL (h : Below (Holds p k) (f k) m) : Below (Holds p k) (keyOf p >>= f) m :=
  fun w hi r hr => h w hi r (by rw [← run_bind (runs_keyOf hi) (k := f)]; exact hr)

theorem Below.keyR (h : Below (Holds p k) m (f k)) : Below (Holds p k) m (keyOf p >>= f) :=
  fun w hi r hr => by rw [run_bind (runs_keyOf hi) (k := f)]; exact h w hi r hr
end

theorem keeps_keyOf (q : Ptr) : Keeps (Holds p k) (keyOf q) := (ReadOnly.RB.keyOf q).keeps

/-- Compare two programs step by step. -/
macro "alongside" : tactic => `(tactic| repeat' first
  | exact Below.rfl' | assumption
  | refine Below.keyL ?_ | refine Below.keyR ?_
  | refine Below.ite ?_ ?_
  | refine Below.bind Below.rfl' (keeps_keyOf _) fun _ => ?_
  | refine Below.bind Below.rfl' (Keeps.cmp _ _ _) fun _ => ?_
  | refine Below.bind Below.rfl' (Keeps.rd _) fun _ => ?_)

theorem agree_insDescend (x y : Ptr) (b : Bool) : Agree (Holds p k) (insDescendRef lt p x y b) (insDescend lt k x y b) := by
  refine Below.agree ?_ ?_
  · refine RB.insDescendRef.fixpoint_induct lt p (fun g => ∀ x y b, Below (Holds p k) (g x y b) (insDescend lt k x y b))
      Below.admissible3 ?_ x y b
    intro g hg x y b
    rw [RB.insDescend]
    alongside
    exact hg _ _ _
  · refine RB.insDescend.fixpoint_induct lt k (fun g => ∀ x y b, Below (Holds p k) (g x y b) (insDescendRef lt p x y b))
      Below.admissible3 ?_ x y b
    intro g hg x y b
    rw [RB.insDescendRef]
    alongside
    exact hg _ _ _

theorem agree_lowerDescend (x y : Ptr) : Agree (Holds p k) (lowerDescendRef lt p x y) (lowerDescend lt k x y) := by
  refine Below.agree ?_ ?_
  · refine RB.lowerDescendRef.fixpoint_induct lt p (fun g => ∀ x y, Below (Holds p k) (g x y) (lowerDescend lt k x y))
      Below.admissible2 ?_ x y
    intro g hg x y
    rw [RB.lowerDescend]
    alongside
    exact hg _ _
  · refine RB.lowerDescend.fixpoint_induct lt k (fun g => ∀ x y, Below (Holds p k) (g x y) (lowerDescendRef lt p x y))
      Below.admissible2 ?_ x y
    intro g hg x y
    rw [RB.lowerDescendRef]
    alongside
    exact hg _ _

theorem agree_lowerBound (x y : Ptr) : Agree (Holds p k) (lowerBoundRef lt p x y) (lowerBound lt k x y) := by
  refine Below.agree ?_ ?_
  · refine RB.lowerBoundRef.fixpoint_induct lt p (fun g => ∀ x y, Below (Holds p k) (g x y) (lowerBound lt k x y))
      Below.admissible2 ?_ x y
    intro g hg x y
    rw [RB.lowerBound]
    alongside <;> exact hg _ _
  · refine RB.lowerBound.fixpoint_induct lt k (fun g => ∀ x y, Below (Holds p k) (g x y) (lowerBoundRef lt p x y))
      Below.admissible2 ?_ x y
    intro g hg x y
    rw [RB.lowerBoundRef]
    alongside <;> exact hg _ _

theorem agree_upperBound (x y : Ptr) : Agree (Holds p k) (upperBoundRef lt p x y) (upperBound lt k x y) := by
  refine Below.agree ?_ ?_
  · refine RB.upperBoundRef.fixpoint_induct lt p (fun g => ∀ x y, Below (Holds p k) (g x y) (upperBound lt k x y))
      Below.admissible2 ?_ x y
    intro g hg x y
    rw [RB.upperBound]
    alongside <;> exact hg _ _
  · refine RB.upperBound.fixpoint_induct lt k (fun g => ∀ x y, Below (Holds p k) (g x y) (upperBoundRef lt p x y))
      Below.admissible2 ?_ x y
    intro g hg x y
    rw [RB.upperBoundRef]
    alongside <;> exact hg _ _

theorem agree_bounds (x y x' y' : Ptr) : Agree (Holds p k)
    (do let l ← lowerBoundRef lt p x y; let n ← rd x'; let u ← upperBoundRef lt p n.right y'; pure (l, u))
    (do let l ← lowerBound lt k x y; let n ← rd x'; let u ← upperBound lt k n.right y'; pure (l, u)) :=
  .bind (agree_lowerBound _ _) (ReadOnly.RB.lowerBound _ _ _ _).keeps fun _ => .bind .rfl' (.rd _) fun _ =>
    .bind (agree_upperBound _ _) (ReadOnly.RB.upperBound _ _ _ _).keeps fun _ => .rfl'

theorem agree_equalRangeLoop (x y : Ptr) : Agree (Holds p k) (equalRangeLoopRef lt p x y) (equalRangeLoop lt k x y) := by
  refine Below.agree ?_ ?_
  · refine RB.equalRangeLoopRef.fixpoint_induct lt p (fun g => ∀ x y, Below (Holds p k) (g x y) (equalRangeLoop lt k x y))
      Below.admissible2 ?_ x y
    intro g hg x y
    rw [RB.equalRangeLoop]
    alongside <;> first | exact hg _ _ | exact (agree_bounds _ _ _ _).below
  · refine RB.equalRangeLoop.fixpoint_induct lt k (fun g => ∀ x y, Below (Holds p k) (g x y) (equalRangeLoopRef lt p x y))
      Below.admissible2 ?_ x y
    intro g hg x y
    rw [RB.equalRangeLoopRef]
    alongside <;> first | exact hg _ _ | exact (agree_bounds _ _ _ _).symm.below

theorem reads_insDescend (x y : Ptr) (b : Bool) : ReadOnly (insDescend lt k x y b : M (W K) (Ptr × Bool)) := by
  refine RB.insDescend.fixpoint_induct lt k (fun g => ∀ x y b, ReadOnly (g x y b)) ReadOnly.admissible3 ?_ x y b
  intro g hg x y b
  exact .ite (.bind (ReadOnly.RB.keyOf _) fun _ => .bind (.cmp _ _ _) fun _ => .bind (.rd _) fun _ => hg _ _ _) (.pure _)

theorem reads_lowerDescend (x y : Ptr) : ReadOnly (lowerDescend lt k x y : M (W K) Ptr) := by
  refine RB.lowerDescend.fixpoint_induct lt k (fun g => ∀ x y, ReadOnly (g x y)) ReadOnly.admissible2 ?_ x y
  intro g hg x y
  exact .ite (.bind (ReadOnly.RB.keyOf _) fun _ => .bind (.cmp _ _ _) fun _ => .bind (.rd _) fun _ => hg _ _) (.pure _)

/-- Compare two programs step by step. -/
macro "together" : tactic => `(tactic| repeat' first
  | exact Agree.rfl' | assumption
  | refine agree_key ?_
  | refine Agree.ite ?_ ?_
  | refine Agree.bind Agree.rfl' (keeps_keyOf _) fun _ => ?_
  | refine Agree.bind Agree.rfl' (Keeps.cmp _ _ _) fun _ => ?_
  | refine Agree.bind Agree.rfl' (Keeps.rd _) fun _ => ?_
  | refine Agree.bind Agree.rfl' Keeps.hasErr fun _ => ?_
  | refine Agree.bind Agree.rfl' (ReadOnly.keeps (ReadOnly.RB.decrement _)) fun _ => ?_
  | refine Agree.bind Agree.rfl' (ReadOnly.keeps (ReadOnly.RB.increment _)) fun _ => ?_
  | refine Agree.bind Agree.rfl' (ReadOnly.keeps (ReadOnly.RB.size _)) fun _ => ?_)

theorem agree_getInsertUniquePos (s : Ptr) : Agree (Holds p k) (getInsertUniquePosRef lt s p) (getInsertUniquePos lt s k) := by
  unfold getInsertUniquePosRef getInsertUniquePos
  refine .bind .rfl' (.rd _) fun _ => .bind (agree_insDescend _ _ _) (reads_insDescend _ _ _).keeps fun _ => ?_
  together

theorem agree_getInsertHintUniquePos (s pos : Ptr) :
    Agree (Holds p k) (getInsertHintUniquePosRef lt s pos p) (getInsertHintUniquePos lt s pos k) := by
  unfold getInsertHintUniquePosRef getInsertHintUniquePos
  have hu := agree_getInsertUniquePos (p := p) (k := k) (lt := lt) s
  together

theorem reads_getInsertUniquePos (s : Ptr) : ReadOnly (getInsertUniquePos lt s k : M (W K) (Ptr × Ptr)) := by
  unfold getInsertUniquePos
  refine .bind (.rd _) fun _ => .bind (reads_insDescend _ _ _) fun _ => .ite (.bind (.rd _) fun _ => .ite (.pure _) ?_) ?_
  · exact .bind (ReadOnly.RB.decrement _) fun _ => .bind (ReadOnly.RB.keyOf _) fun _ => .bind (.cmp _ _ _) fun _ =>
      .ite (.pure _) (.pure _)
  · exact .bind (ReadOnly.RB.keyOf _) fun _ => .bind (.cmp _ _ _) fun _ => .ite (.pure _) (.pure _)

theorem reads_getInsertHintUniquePos (s pos : Ptr) : ReadOnly (getInsertHintUniquePos lt s pos k : M (W K) (Ptr × Ptr)) := by
  unfold getInsertHintUniquePos
  have hu := reads_getInsertUniquePos (k := k) (lt := lt) s
  repeat' first
    | assumption | exact ReadOnly.pure _ | exact ReadOnly.rd _ | exact ReadOnly.RB.keyOf _ | exact ReadOnly.cmp _ _ _
    | exact ReadOnly.RB.decrement _ | exact ReadOnly.RB.increment _ | exact ReadOnly.RB.size _
    | refine ReadOnly.ite ?_ ?_
    | refine ReadOnly.bind ?_ fun _ => ?_

theorem keeps_putNode {s q : Ptr} (hq : q ≠ p) : Keeps (Holds p k) (putNode s q : M (W K) Unit) := by
  unfold RB.putNode
  exact .bind (.rd _) fun _ => .freeCell _ hq

theorem agree_createNode (s : Ptr) : Agree (Holds p k) (createNodeRef s p) (createNode s k) := by
  unfold createNodeRef createNode
  refine .bind .rfl' (.rd _) fun _ => .steps .rfl' (J := fun q w => Holds p k w ∧ q ≠ p) (fun w q w' hi h => hi.alloc _ h) ?_
  intro q w hi
  refine Agree.bind (I := Holds p k) .rfl' .hasErr (fun _ => .ite .rfl' ?_) w hi.1
  refine .steps (J := fun _ _ => True) ?_ (fun _ _ _ _ _ => trivial) (fun _ _ _ => rfl)
  exact agree_key .rfl'

theorem agree_insert (s x q : Ptr) : Agree (Holds p k) (insertRef lt s x q p) (insert_ lt s x q k) := by
  unfold insertRef insert_
  refine .bind ?_ ?_ fun _ => Agree.after (agree_createNode _)
  · together
  · exact .ite (.pure _) (.ite (.pure _) (.bind (keeps_keyOf _) fun _ => .cmp _ _ _))

theorem agree_insertUnique (s : Ptr) : Agree (Holds p k) (insertUniqueRef lt s p) (insertUnique lt s k) := by
  unfold insertUniqueRef insertUnique
  refine .bind (agree_getInsertUniquePos _) ?_ fun _ => .ite (Agree.after (agree_insert _ _ _)) .rfl'
  exact (reads_getInsertUniquePos _).keeps

theorem agree_insertUniqueAt (s pos : Ptr) : Agree (Holds p k) (insertUniqueAtRef lt s pos p) (insertUniqueAt lt s pos k) := by
  unfold insertUniqueAtRef insertUniqueAt
  refine .bind (agree_getInsertHintUniquePos _ _) ?_ fun _ => .ite (agree_insert _ _ _) .rfl'
  exact (reads_getInsertHintUniquePos _ _).keeps

theorem agree_emplaceUnique (s : Ptr) : Agree (Holds p k) (emplaceUniqueRef lt s p) (emplaceUnique lt s k) :=
  Agree.after (agree_createNode _)
theorem agree_emplaceHintUnique (s pos : Ptr) :
    Agree (Holds p k) (emplaceHintUniqueRef lt s pos p) (emplaceHintUnique lt s pos k) := Agree.after (agree_createNode _)
theorem agree_emplaceEqual (s : Ptr) : Agree (Holds p k) (emplaceEqualRef lt s p) (emplaceEqual lt s k) :=
  Agree.after (agree_createNode _)
theorem agree_emplaceHintEqual (s pos : Ptr) :
    Agree (Holds p k) (emplaceHintEqualRef lt s pos p) (emplaceHintEqual lt s pos k) := Agree.after (agree_createNode _)

theorem agree_insertLower (s q : Ptr) : Agree (Holds p k) (insertLowerRef lt s q p) (insertLower lt s q k) := by
  unfold insertLowerRef insertLower
  refine .bind ?_ ?_ fun _ => Agree.after (agree_createNode _)
  · together
  · exact .ite (.pure _) (.bind (keeps_keyOf _) fun _ => .bind (.cmp _ _ _) fun _ => .pure _)

theorem agree_insertEqualLower (s : Ptr) : Agree (Holds p k) (insertEqualLowerRef lt s p) (insertEqualLower lt s k) :=
  .bind .rfl' (.rd _) fun _ => .bind (agree_lowerDescend _ _) (reads_lowerDescend _ _).keeps fun _ => agree_insertLower _ _

theorem agree_equalRange (s : Ptr) : Agree (Holds p k) (equalRangeRef lt s p) (equalRange lt s k) :=
  .bind .rfl' (.rd _) fun _ => agree_equalRangeLoop _ _

theorem agree_find (s : Ptr) : Agree (Holds p k) (findRef lt s p) (find lt s k) := by
  unfold findRef find
  refine .bind .rfl' (.rd _) fun _ => .bind (agree_lowerBound _ _) (ReadOnly.RB.lowerBound _ _ _ _).keeps fun _ => ?_
  together

theorem agree_eraseKey (s : Ptr) : Agree (Holds p k) (eraseKeyRef lt s p) (eraseKey lt s k) := Agree.after (agree_equalRange _)

end Nestl.RB
