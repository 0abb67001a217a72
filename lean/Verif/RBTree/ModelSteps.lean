import Verif.RBTree.ModelExtra
set_option autoImplicit false
/-
The iterator operations of red_black_tree.hpp (`rbt.hpp`) with a count of the links they follow: the same programs, which
additionally return how often a node pointer has been replaced by one of the links of the node it points to.
-/
namespace Nestl.RB
variable {K : Type}

/-- `while (x->m_left != 0) x = x->m_left;`: rbt.hpp:45-49, 114-117 (as `minLoop`). -/
def minLoopN (x : Ptr) : M (W K) (Ptr × Nat) := do
  let n ← rd x
  if n.left ≠ .null then do
    let r ← minLoopN n.left
    pure (r.1, r.2 + 1)
  else pure (x, 0)
partial_fixpoint

/-- `while (x->m_right != 0) x = x->m_right;`: rbt.hpp:66-69, 143-144 (as `maxLoop`). -/
def maxLoopN (x : Ptr) : M (W K) (Ptr × Nat) := do
  let n ← rd x
  if n.right ≠ .null then do
    let r ← maxLoopN n.right
    pure (r.1, r.2 + 1)
  else pure (x, 0)
partial_fixpoint

/-- rbt.hpp:122-126 (as `incClimb`). -/
def incClimbN (x y : Ptr) : M (W K) ((Ptr × Ptr) × Nat) := do
  let n ← rd y
  if x = n.right then do
    let r ← incClimbN y n.parent
    pure (r.1, r.2 + 1)
  else pure ((x, y), 0)
partial_fixpoint

/-- `rb_tree_increment`: rbt.hpp:109-134 (as `increment`). -/
def incrementN (x : Ptr) : M (W K) (Ptr × Nat) := do
  let n ← rd x
  if n.right ≠ .null then do
    let r ← minLoopN n.right
    pure (r.1, r.2 + 1)
  else do
    let r ← incClimbN x n.parent
    if (← rd r.1.1).right ≠ r.1.2 then pure (r.1.2, r.2 + 1) else pure (r.1.1, r.2 + 1)

/-- rbt.hpp:150-154 (as `decClimb`). -/
def decClimbN (x y : Ptr) : M (W K) (Ptr × Nat) := do
  let n ← rd y
  if x = n.left then do
    let r ← decClimbN y n.parent
    pure (r.1, r.2 + 1)
  else pure (y, 0)
partial_fixpoint

/-- `rb_tree_decrement`: rbt.hpp:136-159 (as `decrement`). -/
def decrementN (x : Ptr) : M (W K) (Ptr × Nat) := do
  let n ← rd x
  let isHdr ← (if n.color = .red then do
      let m ← rd n.parent
      pure (decide (m.parent = x))
    else pure false)
  if isHdr then pure (n.right, 1)
  else if n.left ≠ .null then do
    let r ← maxLoopN n.left
    pure (r.1, r.2 + 1)
  else do
    let r ← decClimbN x n.parent
    pure (r.1, r.2 + 1)

end Nestl.RB
