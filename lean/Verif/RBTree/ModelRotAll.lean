import Verif.RBTree.ModelRot
import Verif.RBTree.ModelEqual
import Verif.RBTree.ModelExtra
set_option autoImplicit false
/-
All ways to insert an element of red_black_tree.hpp (`rbt.hpp`) with a count of the rotations and of the passes of the
rebalancing loop: the same programs, which additionally return the two numbers.
-/
namespace Nestl.RB
variable {K : Type}

/-- Linking a node that is ready: rbt.hpp:1416-1421, 1437-1440, 1980-1983, 1991-1994. -/
def linkN (hdr p : Ptr) (insertLeft : Bool) (z : Ptr) : M (W K) (Ptr × Nat × Nat) := do
  let n ← insertAndRebalanceN insertLeft z p hdr
  setCount hdr (· + 1)
  pure (z, n)

/-- `m_insert_node`: rbt.hpp:1976-1984 (as `insertNode`). -/
def insertNodeN (lt : K → K → Bool) (hdr x p z : Ptr) : M (W K) (Ptr × Nat × Nat) := do
  let insertLeft ← (if x ≠ .null then pure true else if p = hdr then pure true
    else do cmp lt (← keyOf z) (← keyOf p))
  linkN hdr p insertLeft z

/-- `m_insert_lower`: rbt.hpp:1424-1441 (as `insertLower`). -/
def insertLowerN (lt : K → K → Bool) (hdr p : Ptr) (v : K) : M (W K) (Ptr × Nat × Nat) := do
  let insertLeft ← (if p = hdr then pure true else do pure (!(← cmp lt (← keyOf p) v)))
  let l ← createNode hdr v
  if (← hasErr) then pure (hdr, 0, 0) else linkN hdr p insertLeft l

/-- `m_insert_equal_lower`: rbt.hpp:1443-1456 (as `insertEqualLower`). -/
def insertEqualLowerN (lt : K → K → Bool) (hdr : Ptr) (v : K) : M (W K) (Ptr × Nat × Nat) := do
  let y ← lowerDescend lt v (← rd hdr).parent hdr
  insertLowerN lt hdr y v

/-- `m_insert_lower_node`: rbt.hpp:1987-1995 (as `insertLowerNode`). -/
def insertLowerNodeN (lt : K → K → Bool) (hdr p z : Ptr) : M (W K) (Ptr × Nat × Nat) := do
  let insertLeft ← (if p = hdr then pure true else do pure (!(← cmp lt (← keyOf p) (← keyOf z))))
  linkN hdr p insertLeft z

/-- `m_insert_equal_lower_node`: rbt.hpp:1998-2010 (as `insertEqualLowerNode`). -/
def insertEqualLowerNodeN (lt : K → K → Bool) (hdr z : Ptr) : M (W K) (Ptr × Nat × Nat) := do
  let y ← lowerDescend lt (← keyOf z) (← rd hdr).parent hdr
  insertLowerNodeN lt hdr y z

/-- `m_emplace_equal`: rbt.hpp:2034-2056 (as `emplaceEqual`). -/
def emplaceEqualN (lt : K → K → Bool) (hdr : Ptr) (v : K) : M (W K) (Ptr × Nat × Nat) := do
  let z ← createNode hdr v
  if (← hasErr) then pure (hdr, 0, 0) else do
  let (x, p) ← getInsertEqualPos lt hdr (← keyOf z)
  insertNodeN lt hdr x p z

/-- `m_emplace_hint_equal`: rbt.hpp:2088-2114 (as `emplaceHintEqual`). -/
def emplaceHintEqualN (lt : K → K → Bool) (hdr pos : Ptr) (v : K) : M (W K) (Ptr × Nat × Nat) := do
  let z ← createNode hdr v
  if (← hasErr) then pure (hdr, 0, 0) else do
  let (x, p) ← getInsertHintEqualPos lt hdr pos (← keyOf z)
  if p ≠ .null then insertNodeN lt hdr x p z
  else insertEqualLowerNodeN lt hdr z

/-- `m_insert_equal`: rbt.hpp:1793-1801 (as `insertEqual`). -/
def insertEqualN (lt : K → K → Bool) (hdr : Ptr) (v : K) : M (W K) (Ptr × Nat × Nat) := do
  let (x, p) ← getInsertEqualPos lt hdr v
  insertN_ lt hdr x p v

/-- `m_insert_equal_at`: rbt.hpp:1961-1973 (as `insertEqualAt`). -/
def insertEqualAtN (lt : K → K → Bool) (hdr pos : Ptr) (v : K) : M (W K) (Ptr × Nat × Nat) := do
  let (x, p) ← getInsertHintEqualPos lt hdr pos v
  if p ≠ .null then insertN_ lt hdr x p v
  else insertEqualLowerN lt hdr v

/-- `m_insert_unique_at`: rbt.hpp:1877-1890 (as `insertUniqueAt`). -/
def insertUniqueAtN (lt : K → K → Bool) (hdr pos : Ptr) (v : K) : M (W K) (Ptr × Nat × Nat) := do
  let (x, p) ← getInsertHintUniquePos lt hdr pos v
  if p ≠ .null then insertN_ lt hdr x p v else pure (x, 0, 0)

/-- `m_emplace_unique`: rbt.hpp:2012-2032 (as `emplaceUnique`; only the iterator of the result). -/
def emplaceUniqueN (lt : K → K → Bool) (hdr : Ptr) (v : K) : M (W K) (Ptr × Nat × Nat) := do
  let z ← createNode hdr v
  if (← hasErr) then pure (hdr, 0, 0) else do
  let (x, p) ← getInsertUniquePos lt hdr (← keyOf z)
  if p ≠ .null then insertNodeN lt hdr x p z
  else
    destroyNode hdr z
    pure (x, 0, 0)

/-- `m_emplace_hint_unique`: rbt.hpp:2059-2085 (as `emplaceHintUnique`). -/
def emplaceHintUniqueN (lt : K → K → Bool) (hdr pos : Ptr) (v : K) : M (W K) (Ptr × Nat × Nat) := do
  let z ← createNode hdr v
  if (← hasErr) then pure (hdr, 0, 0) else do
  let (x, p) ← getInsertHintUniquePos lt hdr pos (← keyOf z)
  if p ≠ .null then insertNodeN lt hdr x p z
  else
    destroyNode hdr z
    pure (x, 0, 0)

/-- Ways to insert one element. -/
inductive Way
  | plain                                -- `s.insert_nothrow(err, k)`, `t.m_insert_unique(err, k)`
  | at (pos : Ptr)                       -- `t.m_insert_unique_at(err, pos, k)`
  | emplace                              -- `t.m_emplace_unique(err, k)`
  | emplaceAt (pos : Ptr)                -- `t.m_emplace_hint_unique(err, pos, k)`
  | equal                                -- `t.m_insert_equal(err, k)`
  | equalAt (pos : Ptr)                  -- `t.m_insert_equal_at(err, pos, k)`
  | upper                                -- `t.m_emplace_equal(err, k)`
  | lower                                -- `t.m_insert_equal_lower(err, k)`
  | hint (pos : Ptr)                     -- `t.m_emplace_hint_equal(err, pos, k)`

/-- The insertion; it returns the iterator (rbt.hpp:1443-1456, 1776-1801, 1877-1890, 1961-1973, 2012-2114). -/
def insertBy (lt : K → K → Bool) (hdr : Ptr) (v : K) : Way → M (W K) Ptr
  | .plain => do let r ← insertUnique lt hdr v; pure r.1
  | .at pos => insertUniqueAt lt hdr pos v
  | .emplace => do let r ← emplaceUnique lt hdr v; pure r.1
  | .emplaceAt pos => emplaceHintUnique lt hdr pos v
  | .equal => insertEqual lt hdr v
  | .equalAt pos => insertEqualAt lt hdr pos v
  | .upper => emplaceEqual lt hdr v
  | .lower => insertEqualLower lt hdr v
  | .hint pos => emplaceHintEqual lt hdr pos v

/-- The same insertion, which also returns rotations and passes (rbt.hpp:1443-1456, 1776-1801, 1877-1890, 1961-1973, 2012-2114). -/
def insertByN (lt : K → K → Bool) (hdr : Ptr) (v : K) : Way → M (W K) (Ptr × Nat × Nat)
  | .plain => do let r ← insertUniqueN lt hdr v; pure (r.1.1, r.2)
  | .at pos => insertUniqueAtN lt hdr pos v
  | .emplace => emplaceUniqueN lt hdr v
  | .emplaceAt pos => emplaceHintUniqueN lt hdr pos v
  | .equal => insertEqualN lt hdr v
  | .equalAt pos => insertEqualAtN lt hdr pos v
  | .upper => emplaceEqualN lt hdr v
  | .lower => insertEqualLowerN lt hdr v
  | .hint pos => emplaceHintEqualN lt hdr pos v

/-- The loop of `m_insert_unique(err, first, last)` and `m_insert_equal(first, last)`: rbt.hpp:2116-2141 (as `insertUniqueRange`,
`insertEqualRange`), which also returns all rotations and passes.  The way is `m_insert_unique_at(err, end(), v)` or
`m_insert_equal_at(err, end(), v)`. -/
def insertRangeByN (lt : K → K → Bool) (hdr : Ptr) (y : Way) : List K → M (W K) (Nat × Nat)
  | [] => pure (0, 0)
  | v :: vs => do
    let n ← insertByN lt hdr v y
    if (← hasErr) then pure n.2 else do
      let m ← insertRangeByN lt hdr y vs
      pure (n.2.1 + m.1, n.2.2 + m.2)

/-- `m_insert_unique(err, first, last)`, counted: rbt.hpp:2116-2129. -/
def insertUniqueRangeN (lt : K → K → Bool) (hdr : Ptr) (vs : List K) : M (W K) (Nat × Nat) := insertRangeByN lt hdr (.at hdr) vs

/-- `m_insert_equal(first, last)`, counted: rbt.hpp:2131-2141. -/
def insertEqualRangeN (lt : K → K → Bool) (hdr : Ptr) (vs : List K) : M (W K) (Nat × Nat) := insertRangeByN lt hdr (.equalAt hdr) vs

end Nestl.RB
