import Verif.RBTree.ModelExtra
set_option autoImplicit false
/-
Insertion of elements whose keys may be present already (the interface of `rb_tree` for a multiset).  `rbt.hpp`
abbreviates nestl/implementation/detail/red_black_tree.hpp.  `m_insert_equal` and `m_insert_equal_at` (rbt.hpp:1793-1801,
1961-1973, 2131-2141) call `m_insert_` without its error argument and do not compile; they are modelled as if they took the
error argument and passed it on, as `m_insert_unique` and `m_insert_unique_at` do.
-/
namespace Nestl.RB
variable {K : Type}

/-- `m_get_insert_equal_pos`: rbt.hpp:1760-1774.  The loop is that of `m_get_insert_unique_pos` without the variable
`comp`. -/
def getInsertEqualPos (lt : K → K → Bool) (hdr : Ptr) (k : K) : M (W K) (Ptr × Ptr) := do
  let (y, _) ← insDescend lt k (← rd hdr).parent hdr true
  pure (.null, y)

/-- `m_get_insert_hint_equal_pos`: rbt.hpp:1890-1957. -/
def getInsertHintEqualPos (lt : K → K → Bool) (hdr pos : Ptr) (k : K) : M (W K) (Ptr × Ptr) := do
  if pos = hdr then
    if 0 < (← size hdr) then
      if !(← cmp lt k (← keyOf (← rd hdr).right)) then pure (.null, (← rd hdr).right)
      else getInsertEqualPos lt hdr k
    else getInsertEqualPos lt hdr k
  else if !(← cmp lt (← keyOf pos) k) then
    if pos = (← rd hdr).left then pure ((← rd hdr).left, (← rd hdr).left)
    else
      let before ← decrement pos
      if !(← cmp lt k (← keyOf before)) then
        if (← rd before).right = .null then pure (.null, before) else pure (pos, pos)
      else getInsertEqualPos lt hdr k
  else
    if pos = (← rd hdr).right then pure (.null, (← rd hdr).right)
    else
      let after ← increment pos
      if !(← cmp lt (← keyOf after) k) then
        if (← rd pos).right = .null then pure (.null, pos) else pure (after, after)
      else pure (.null, .null)

/-- The descent of `m_insert_equal_lower` (rbt.hpp:1448-1454) and `m_insert_equal_lower_node` (rbt.hpp:2002-2008): the last node
visited. -/
def lowerDescend (lt : K → K → Bool) (k : K) (x y : Ptr) : M (W K) Ptr := do
  if x ≠ .null then
    let c ← cmp lt (← keyOf x) k
    let n ← rd x
    lowerDescend lt k (if !c then n.left else n.right) x
  else pure y
partial_fixpoint

/-- `m_insert_lower`: rbt.hpp:1424-1441. -/
def insertLower (lt : K → K → Bool) (hdr p : Ptr) (v : K) : M (W K) Ptr := do
  let insertLeft ← (if p = hdr then pure true else do pure (!(← cmp lt (← keyOf p) v)))
  let l ← createNode hdr v
  if (← hasErr) then pure hdr else do
  insertAndRebalance insertLeft l p hdr
  setCount hdr (· + 1)
  pure l

/-- `m_insert_equal_lower`: rbt.hpp:1443-1456. -/
def insertEqualLower (lt : K → K → Bool) (hdr : Ptr) (v : K) : M (W K) Ptr := do
  let y ← lowerDescend lt v (← rd hdr).parent hdr
  insertLower lt hdr y v

/-- `m_insert_lower_node`: rbt.hpp:1987-1995. -/
def insertLowerNode (lt : K → K → Bool) (hdr p z : Ptr) : M (W K) Ptr := do
  let insertLeft ← (if p = hdr then pure true else do pure (!(← cmp lt (← keyOf p) (← keyOf z))))
  insertAndRebalance insertLeft z p hdr
  setCount hdr (· + 1)
  pure z

/-- `m_insert_equal_lower_node`: rbt.hpp:1998-2010. -/
def insertEqualLowerNode (lt : K → K → Bool) (hdr z : Ptr) : M (W K) Ptr := do
  let y ← lowerDescend lt (← keyOf z) (← rd hdr).parent hdr
  insertLowerNode lt hdr y z

/-- `m_emplace_equal`: rbt.hpp:2034-2056. -/
def emplaceEqual (lt : K → K → Bool) (hdr : Ptr) (v : K) : M (W K) Ptr := do
  let z ← createNode hdr v
  if (← hasErr) then pure hdr else do
  let (x, p) ← getInsertEqualPos lt hdr (← keyOf z)
  insertNode lt hdr x p z

/-- `m_emplace_hint_equal`: rbt.hpp:2088-2114. -/
def emplaceHintEqual (lt : K → K → Bool) (hdr pos : Ptr) (v : K) : M (W K) Ptr := do
  let z ← createNode hdr v
  if (← hasErr) then pure hdr else do
  let (x, p) ← getInsertHintEqualPos lt hdr pos (← keyOf z)
  if p ≠ .null then insertNode lt hdr x p z
  else insertEqualLowerNode lt hdr z

/-- `m_insert_equal`: rbt.hpp:1793-1801 (with the error argument that its call of `m_insert_` lacks). -/
def insertEqual (lt : K → K → Bool) (hdr : Ptr) (v : K) : M (W K) Ptr := do
  let (x, p) ← getInsertEqualPos lt hdr v
  insert_ lt hdr x p v

/-- `m_insert_equal_at`: rbt.hpp:1961-1973 (with the error argument that its calls lack). -/
def insertEqualAt (lt : K → K → Bool) (hdr pos : Ptr) (v : K) : M (W K) Ptr := do
  let (x, p) ← getInsertHintEqualPos lt hdr pos v
  if p ≠ .null then insert_ lt hdr x p v
  else insertEqualLower lt hdr v

/-- `m_insert_equal(first, last)`: rbt.hpp:2131-2141; with the error argument, and stopping at the first error, as
`m_insert_unique(err, first, last)` does (rbt.hpp:2116-2129).  The range is the list of the values it delivers (not references into
the tree). -/
def insertEqualRange (lt : K → K → Bool) (hdr : Ptr) : List K → M (W K) Unit
  | [] => pure ()
  | v :: vs => do
    let _ ← insertEqualAt lt hdr hdr v
    if (← hasErr) then pure () else insertEqualRange lt hdr vs

end Nestl.RB
