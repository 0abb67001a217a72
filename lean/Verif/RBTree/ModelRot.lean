import Verif.RBTree.Insert
import Verif.RBTree.EraseFix
import Verif.RBTree.Search
set_option autoImplicit false
/-
The modifying operations of red_black_tree.hpp (`rbt.hpp`) with a count of the rotations and of the passes of the
rebalancing loops: the same programs, which additionally return the two numbers.  The two symmetric arms of the loops
are written once, with the side as a variable.
-/
namespace Nestl.RB
variable {K : Type}

/-- The rebalancing loop of `rb_tree_insert_and_rebalance`: rbt.hpp:425-472 (as `insFix`).  Returns rotations and passes. -/
def insFixN (hdr x : Ptr) : M (W K) (Nat × Nat) := do
  let root := (← rd hdr).parent
  if x = root then pure (0, 0) else do
  let xp := (← rd x).parent
  if (← rd xp).color = .red then
    let xpp := (← rd xp).parent
    let s : Side := if xp = (← rd xpp).left then .L else .R
    let y := (← rd xpp).child s.other
    if (← isRed y) then
      setColor (← rd x).parent .black
      setColor y .black
      setColor xpp .red
      let r ← insFixN hdr xpp
      pure (r.1 + 0, r.2 + 1)
    else
      if x = (← rd (← rd x).parent).child s.other then
        let x := (← rd x).parent
        rotG s hdr x
        setColor (← rd x).parent .black
        setColor xpp .red
        rotG s.other hdr xpp
        let r ← insFixN hdr x
        pure (r.1 + 2, r.2 + 1)
      else
        setColor (← rd x).parent .black
        setColor xpp .red
        rotG s.other hdr xpp
        let r ← insFixN hdr x
        pure (r.1 + 1, r.2 + 1)
  else pure (0, 0)
partial_fixpoint

/-- `rb_tree_insert_and_rebalance`: rbt.hpp:387-474 (as `insertAndRebalance`). -/
def insertAndRebalanceN (insertLeft : Bool) (x p hdr : Ptr) : M (W K) (Nat × Nat) := do
  insLink insertLeft x p hdr
  let r ← insFixN hdr x
  setColor (← rd hdr).parent .black
  pure r

/-- `m_insert_`: rbt.hpp:1405-1422 (as `insert_`). -/
def insertN_ (lt : K → K → Bool) (hdr x p : Ptr) (v : K) : M (W K) (Ptr × Nat × Nat) := do
  let insertLeft ← (if x ≠ .null then pure true else if p = hdr then pure true
    else do cmp lt v (← keyOf p))
  let l ← createNode hdr v
  if (← hasErr) then pure (hdr, 0, 0) else do
  let r ← insertAndRebalanceN insertLeft l p hdr
  setCount hdr (· + 1)
  pure (l, r)

/-- `m_insert_unique`: rbt.hpp:1776-1791; `set::insert_nothrow`: set.hpp:312-326 (as `insertUnique`). -/
def insertUniqueN (lt : K → K → Bool) (hdr : Ptr) (v : K) : M (W K) ((Ptr × Bool) × Nat × Nat) := do
  let (x, p) ← getInsertUniquePos lt hdr v
  if p ≠ .null then
    let r ← insertN_ lt hdr x p v
    pure ((r.1, true), r.2)
  else pure ((x, false), 0, 0)

/-- The loop of `rb_tree_rebalance_for_erase`: rbt.hpp:555-630 (as `eraseFix`).  Returns the final `x`, rotations and passes. -/
def eraseFixN (hdr x xParent : Ptr) : M (W K) (Ptr × Nat × Nat) := do
  let root := (← rd hdr).parent
  if x = root then pure (x, 0, 0) else do
  if (← blackOrNull x) then
    let s : Side := if x = (← rd xParent).left then .L else .R
    let w := (← rd xParent).child s.other
    let (w, c) ← (if (← rd w).color = .red then do
        setColor w .black
        setColor xParent .red
        rotG s hdr xParent
        pure ((← rd xParent).child s.other, 1)
      else pure (w, 0))
    let b1 ← blackOrNull ((← rd w).child s)
    let both ← (if b1 then do blackOrNull ((← rd w).child s.other) else pure false)
    if both then
      setColor w .red
      let r ← eraseFixN hdr xParent (← rd xParent).parent
      pure (r.1, r.2.1 + c, r.2.2 + 1)
    else
      let b2 ← blackOrNull ((← rd w).child s.other)
      let (w, d) ← (if b2 then do
          setColor ((← rd w).child s) .black
          setColor w .red
          rotG s.other hdr w
          pure ((← rd xParent).child s.other, 1)
        else pure (w, 0))
      setColor w (← rd xParent).color
      setColor xParent .black
      if (← rd w).child s.other ≠ .null then
        setColor ((← rd w).child s.other) .black
      rotG s hdr xParent
      pure (x, c + d + 1, 1)
  else pure (x, 0, 0)
partial_fixpoint

/-- `rb_tree_rebalance_for_erase`: rbt.hpp:476-635 (as `rebalanceForErase`). -/
def rebalanceForEraseN (z hdr : Ptr) : M (W K) (Ptr × Nat × Nat) := do
  let (x, xParent) ← eraseUnlink z hdr
  if (← rd z).color ≠ .red then
    let r ← eraseFixN hdr x xParent
    if r.1 ≠ .null then
      setColor r.1 .black
    pure (z, r.2)
  else pure (z, 0, 0)

/-- `m_erase_aux(position)`: rbt.hpp:2142-2149 (as `eraseAux`). -/
def eraseAuxN (hdr z : Ptr) : M (W K) (Nat × Nat) := do
  let y ← rebalanceForEraseN z hdr
  destroyNode hdr y.1
  setCount hdr (· - 1)
  pure y.2

/-- `erase(const_iterator)`: rbt.hpp:1191-1207; set.hpp:328-333 (as `eraseIter`). -/
def eraseIterN (hdr z : Ptr) : M (W K) (Ptr × Nat × Nat) := do
  let r ← increment z
  let n ← eraseAuxN hdr z
  pure (r, n)

end Nestl.RB
