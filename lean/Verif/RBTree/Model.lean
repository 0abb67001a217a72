import Verif.Base
/-
Model of nestl/implementation/detail/red_black_tree.hpp (below: rbt.hpp) and of its wrapper
nestl/implementation/set.hpp, function by function.

Simplifications common to the file: the comparator is a pure function `lt` (its calls are counted in
`World.nCmp`); key type = value type (as in `set`, `identity` key-of-value); counts are `Nat`
(`m_node_count` cannot wrap because there are fewer than 2^64 nodes); const/non-const overloads are
modelled once.
-/
namespace Nestl.RB

/-- rbt.hpp:27-31 `rb_tree_color`. -/
inductive Color | red | black
deriving DecidableEq, Repr

/-- rbt.hpp:33-39, 85-92 `rb_tree_node_base` / `rb_tree_node`.  `val` is `m_storage` (`none` = raw).
The header cell stands for the whole `rb_tree_impl` (rbt.hpp:752-798): its `count` is `m_node_count`, its
`owner` the node allocator of the tree, and its `val` is always raw because the header is a bare
`rb_tree_node_base`.  In ordinary nodes `owner` is (ghost) the allocator the node came from. -/
structure TNode (K : Type) where
  color : Color
  parent : Ptr
  left : Ptr
  right : Ptr
  val : Option K
  owner : Nat
  count : Nat

variable {K : Type}

abbrev W (K : Type) := World (TNode K)

/-- Assign `m_color`: rbt.hpp:38. -/
def setColor (p : Ptr) (c : Color) : M (W K) Unit := modCell p fun n => { n with color := c }
/-- Assign `m_parent`: rbt.hpp:39. -/
def setParent (p : Ptr) (q : Ptr) : M (W K) Unit := modCell p fun n => { n with parent := q }
/-- Assign `m_left`: rbt.hpp:40. -/
def setLeft (p : Ptr) (q : Ptr) : M (W K) Unit := modCell p fun n => { n with left := q }
/-- Assign `m_right`: rbt.hpp:41. -/
def setRight (p : Ptr) (q : Ptr) : M (W K) Unit := modCell p fun n => { n with right := q }
/-- Update `m_node_count`: rbt.hpp:759. -/
def setCount (p : Ptr) (f : Nat → Nat) : M (W K) Unit := modCell p fun n => { n with count := f n.count }

/-- `s_key(x)`: rbt.hpp:862-880, 914-925; reading the key of raw storage (e.g. of the header) is UB. -/
def keyOf (p : Ptr) : M (W K) K := do
  match (← rd p).val with
  | some k => pure k
  | none => fault .rawRead

/-- Initial header content: rbt.hpp:788-795 `m_initialize`, `m_node_count(0)`. -/
def hdrInit (a : Nat) (self : Ptr) : TNode K :=
  { color := .red, parent := .null, left := self, right := self, val := none, owner := a, count := 0 }

/-- Default construction: rbt.hpp:983-1006, set.hpp:143-153. -/
def newTree (a : Nat) : M (W K) Ptr := newObj (hdrInit a)

/-- The `while (x->m_left != 0) x = x->m_left;` loop: rbt.hpp:46-49, 115-118. -/
def minLoop (x : Ptr) : M (W K) Ptr := do
  let n ← rd x
  if n.left ≠ .null then minLoop n.left else pure x
partial_fixpoint

/-- The `while (x->m_right != 0) x = x->m_right;` loop: rbt.hpp:66-69, 143-144. -/
def maxLoop (x : Ptr) : M (W K) Ptr := do
  let n ← rd x
  if n.right ≠ .null then maxLoop n.right else pure x
partial_fixpoint

/-- `s_minimum`: rbt.hpp:43-51 (with its assertion). -/
def sMinimum (x : Ptr) : M (W K) Ptr := do
  assertM (x ≠ .null)
  minLoop x

/-- `s_maximum`: rbt.hpp:64-72 (with its assertion). -/
def sMaximum (x : Ptr) : M (W K) Ptr := do
  assertM (x ≠ .null)
  maxLoop x

/-- rbt.hpp:122-126: `while (x == y->m_right) { x = y; y = y->m_parent; }`. -/
def incClimb (x y : Ptr) : M (W K) (Ptr × Ptr) := do
  let n ← rd y
  if x = n.right then incClimb y n.parent else pure (x, y)
partial_fixpoint

/-- `rb_tree_increment`: rbt.hpp:109-134. -/
def increment (x : Ptr) : M (W K) Ptr := do
  let n ← rd x
  if n.right ≠ .null then
    minLoop n.right
  else
    let (x, y) ← incClimb x n.parent
    if (← rd x).right ≠ y then pure y else pure x

/-- rbt.hpp:150-154: `while (x == y->m_left) { x = y; y = y->m_parent; }`; then `x = y`. -/
def decClimb (x y : Ptr) : M (W K) Ptr := do
  let n ← rd y
  if x = n.left then decClimb y n.parent else pure y
partial_fixpoint

/-- `rb_tree_decrement`: rbt.hpp:136-159 (`&&` evaluated left to right). -/
def decrement (x : Ptr) : M (W K) Ptr := do
  let n ← rd x
  let isHdr ← (if n.color = .red then do
      let m ← rd n.parent
      pure (decide (m.parent = x))
    else pure false)
  if isHdr then pure n.right
  else if n.left ≠ .null then maxLoop n.left
  else decClimb x n.parent

/-- `if (b) b->m_parent = x;`: rbt.hpp:353-354, 372-373, 506, 527-528. -/
def reparent (b x : Ptr) : M (W K) Unit :=
  if b ≠ .null then setParent b x else pure ()

/-- Redirect the link to `x` (root or child link of its parent) to `y`, testing the left link first:
rbt.hpp:357-362, 514-519, 529-535. -/
def relinkL (hdr x y : Ptr) : M (W K) Unit := do
  if x = (← rd hdr).parent then
    setParent hdr y
  else if x = (← rd (← rd x).parent).left then
    setLeft (← rd x).parent y
  else
    setRight (← rd x).parent y

/-- The same, testing the right link first: rbt.hpp:376-381. -/
def relinkR (hdr x y : Ptr) : M (W K) Unit := do
  if x = (← rd hdr).parent then
    setParent hdr y
  else if x = (← rd (← rd x).parent).right then
    setRight (← rd x).parent y
  else
    setLeft (← rd x).parent y

/-- `local_rb_tree_rotate_left`: rbt.hpp:348-365; `root` is the reference `header.m_parent`. -/
def rotateLeft (hdr x : Ptr) : M (W K) Unit := do
  let y := (← rd x).right
  setRight x (← rd y).left
  reparent (← rd y).left x
  setParent y (← rd x).parent
  relinkL hdr x y
  setLeft y x
  setParent x y

/-- `local_rb_tree_rotate_right`: rbt.hpp:367-384. -/
def rotateRight (hdr x : Ptr) : M (W K) Unit := do
  let y := (← rd x).left
  setLeft x (← rd y).right
  reparent (← rd y).right x
  setParent y (← rd x).parent
  relinkR hdr x y
  setRight y x
  setParent x y

/-- `y && y->m_color == rb_red`. -/
def isRed (y : Ptr) : M (W K) Bool :=
  if y = .null then pure false else do pure (decide ((← rd y).color = .red))

/-- The rebalancing loop of `rb_tree_insert_and_rebalance`: rbt.hpp:425-472. -/
def insFix (hdr x : Ptr) : M (W K) Unit := do
  let root := (← rd hdr).parent
  if x = root then pure () else do
  let xp := (← rd x).parent
  if (← rd xp).color = .red then
    let xpp := (← rd xp).parent
    if xp = (← rd xpp).left then
      let y := (← rd xpp).right
      if (← isRed y) then
        setColor (← rd x).parent .black
        setColor y .black
        setColor xpp .red
        insFix hdr xpp
      else
        if x = (← rd (← rd x).parent).right then
          let x := (← rd x).parent
          rotateLeft hdr x
          setColor (← rd x).parent .black
          setColor xpp .red
          rotateRight hdr xpp
          insFix hdr x
        else
          setColor (← rd x).parent .black
          setColor xpp .red
          rotateRight hdr xpp
          insFix hdr x
    else
      let y := (← rd xpp).left
      if (← isRed y) then
        setColor (← rd x).parent .black
        setColor y .black
        setColor xpp .red
        insFix hdr xpp
      else
        if x = (← rd (← rd x).parent).left then
          let x := (← rd x).parent
          rotateRight hdr x
          setColor (← rd x).parent .black
          setColor xpp .red
          rotateLeft hdr xpp
          insFix hdr x
        else
          setColor (← rd x).parent .black
          setColor xpp .red
          rotateLeft hdr xpp
          insFix hdr x
  else pure ()
partial_fixpoint

/-- Linking the new node: rbt.hpp:394-423. -/
def insLink (insertLeft : Bool) (x p hdr : Ptr) : M (W K) Unit := do
  setParent x p
  setLeft x .null
  setRight x .null
  setColor x .red
  if insertLeft then
    setLeft p x
    if p = hdr then
      setParent hdr x
      setRight hdr x
    else if p = (← rd hdr).left then
      setLeft hdr x
  else
    setRight p x
    if p = (← rd hdr).right then
      setRight hdr x

/-- `rb_tree_insert_and_rebalance`: rbt.hpp:387-474. -/
def insertAndRebalance (insertLeft : Bool) (x p hdr : Ptr) : M (W K) Unit := do
  insLink insertLeft x p hdr
  insFix hdr x
  setColor (← rd hdr).parent .black

/-- `v == 0 || v->m_color == rb_black`. -/
def blackOrNull (v : Ptr) : M (W K) Bool :=
  if v = .null then pure true else do pure (decide ((← rd v).color = .black))

/-- Maintaining `leftmost`: rbt.hpp:536-543. -/
def eraseLeftmost (z hdr x : Ptr) : M (W K) Unit := do
  if (← rd hdr).left = z then
    if (← rd z).right = .null then
      setLeft hdr (← rd z).parent
    else
      setLeft hdr (← sMinimum x)
  else pure ()

/-- Maintaining `rightmost`: rbt.hpp:544-551. -/
def eraseRightmost (z hdr x : Ptr) : M (W K) Unit := do
  if (← rd hdr).right = z then
    if (← rd z).left = .null then
      setRight hdr (← rd z).parent
    else
      setRight hdr (← sMaximum x)
  else pure ()

/-- First part of `rb_tree_rebalance_for_erase`: rbt.hpp:481-552: unlink `z` (or relink its successor in
its place).  Returns `(x, x_parent)`; afterwards `z` is the node to delete and carries the colour that was
physically removed. -/
def eraseUnlink (z hdr : Ptr) : M (W K) (Ptr × Ptr) := do
  let zn ← rd z
  let (y, x) ← (if zn.left = .null then pure (z, zn.right)
    else if zn.right = .null then pure (z, zn.left)
    else do
      let y ← minLoop zn.right
      pure (y, (← rd y).right))
  if y ≠ z then
    setParent (← rd z).left y
    setLeft y (← rd z).left
    let xParent ← (if y ≠ (← rd z).right then do
        let xParent := (← rd y).parent
        reparent x (← rd y).parent
        setLeft (← rd y).parent x
        setRight y (← rd z).right
        setParent (← rd z).right y
        pure xParent
      else pure y)
    relinkL hdr z y
    setParent y (← rd z).parent
    let cy := (← rd y).color
    setColor y (← rd z).color
    setColor z cy
    pure (x, xParent)
  else
    let xParent := (← rd y).parent
    reparent x (← rd y).parent
    relinkL hdr z x
    eraseLeftmost z hdr x
    eraseRightmost z hdr x
    pure (x, xParent)

/-- The loop of `rb_tree_rebalance_for_erase`: rbt.hpp:555-630.  Returns the final `x`. -/
def eraseFix (hdr x xParent : Ptr) : M (W K) Ptr := do
  let root := (← rd hdr).parent
  if x = root then pure x else do
  if (← blackOrNull x) then
    if x = (← rd xParent).left then
      let w := (← rd xParent).right
      let w ← (if (← rd w).color = .red then do
          setColor w .black
          setColor xParent .red
          rotateLeft hdr xParent
          pure (← rd xParent).right
        else pure w)
      let b1 ← blackOrNull (← rd w).left
      let both ← (if b1 then do blackOrNull (← rd w).right else pure false)
      if both then
        setColor w .red
        eraseFix hdr xParent (← rd xParent).parent
      else
        let b2 ← blackOrNull (← rd w).right
        let w ← (if b2 then do
            setColor (← rd w).left .black
            setColor w .red
            rotateRight hdr w
            pure (← rd xParent).right
          else pure w)
        setColor w (← rd xParent).color
        setColor xParent .black
        if (← rd w).right ≠ .null then
          setColor (← rd w).right .black
        rotateLeft hdr xParent
        pure x
    else
      let w := (← rd xParent).left
      let w ← (if (← rd w).color = .red then do
          setColor w .black
          setColor xParent .red
          rotateRight hdr xParent
          pure (← rd xParent).left
        else pure w)
      let b1 ← blackOrNull (← rd w).right
      let both ← (if b1 then do blackOrNull (← rd w).left else pure false)
      if both then
        setColor w .red
        eraseFix hdr xParent (← rd xParent).parent
      else
        let b2 ← blackOrNull (← rd w).left
        let w ← (if b2 then do
            setColor (← rd w).right .black
            setColor w .red
            rotateLeft hdr w
            pure (← rd xParent).left
          else pure w)
        setColor w (← rd xParent).color
        setColor xParent .black
        if (← rd w).left ≠ .null then
          setColor (← rd w).left .black
        rotateRight hdr xParent
        pure x
  else pure x
partial_fixpoint

/-- `rb_tree_rebalance_for_erase`: rbt.hpp:476-635.  Returns the node to delete. -/
def rebalanceForErase (z hdr : Ptr) : M (W K) Ptr := do
  let (x, xParent) ← eraseUnlink z hdr
  if (← rd z).color ≠ .red then
    let x ← eraseFix hdr x xParent
    if x ≠ .null then
      setColor x .black
  pure z

/-- Destroy the value in a node: nestl/detail/destroy.hpp:17-21. -/
def destroyVal (p : Ptr) : M (W K) Unit := do
  match (← rd p).val with
  | none => fault .rawRead
  | some _ => modCell p fun n => { n with val := none }

/-- Deallocation through the tree's allocator: rbt.hpp:694-698. -/
def putNode (hdr p : Ptr) : M (W K) Unit := do
  let a := (← rd hdr).owner
  freeCell p fun n =>
    if n.owner ≠ a then .error .wrongAllocator
    else if n.val.isSome then .error .freeLive else .ok ()

/-- `construct_val`: rbt.hpp:102-106 with class_operations.hpp:32-37. -/
def constructVal (p : Ptr) (v : K) : M (W K) Unit := do
  if (← tryCtor) then
    match (← rd p).val with
    | some _ => fault .overwriteLive
    | none => modCell p fun n => { n with val := some v }
  else pure ()

/-- `m_create_node`: rbt.hpp:702-722 with the deallocation guard (destroy.hpp:62-89). -/
def createNode (hdr : Ptr) (v : K) : M (W K) Ptr := do
  let a := (← rd hdr).owner
  let l ← allocCell fun junk => { junk with val := none, owner := a, count := 0 }
  if (← hasErr) then pure .null else do
  constructVal l v
  if (← hasErr) then
    putNode hdr l          -- ~guard
    pure .null
  else
    pure l                 -- guard.release()

/-- `m_destroy_node`: rbt.hpp:724-730. -/
def destroyNode (hdr p : Ptr) : M (W K) Unit := do
  destroyVal p
  putNode hdr p

/-- `begin()`: rbt.hpp:1085-1088; set.hpp:196-201. -/
def begin_ (hdr : Ptr) : M (W K) Ptr := do pure (← rd hdr).left

/-- `end()`: rbt.hpp:1095-1098; set.hpp:217-222. -/
def end_ (hdr : Ptr) : M (W K) Ptr := pure hdr

/-- `size()`: rbt.hpp:1130-1132; set.hpp:289-294. -/
def size (hdr : Ptr) : M (W K) Nat := do pure (← rd hdr).count

/-- `empty()`: rbt.hpp:1125-1128; set.hpp:282-287. -/
def empty (hdr : Ptr) : M (W K) Bool := do pure (decide ((← rd hdr).count = 0))

/-- `m_insert_`: rbt.hpp:1405-1422 (`||` evaluated left to right). -/
def insert_ (lt : K → K → Bool) (hdr x p : Ptr) (v : K) : M (W K) Ptr := do
  let insertLeft ← (if x ≠ .null then pure true else if p = hdr then pure true
    else do cmp lt v (← keyOf p))
  let l ← createNode hdr v
  if (← hasErr) then pure hdr else do
  insertAndRebalance insertLeft l p hdr
  setCount hdr (· + 1)
  pure l

/-- Descent of `m_get_insert_unique_pos`: rbt.hpp:1733-1740.  Returns final `y` and `comp`. -/
def insDescend (lt : K → K → Bool) (k : K) (x y : Ptr) (comp : Bool) : M (W K) (Ptr × Bool) := do
  if x ≠ .null then
    let c ← cmp lt k (← keyOf x)
    let n ← rd x
    insDescend lt k (if c then n.left else n.right) x c
  else pure (y, comp)
partial_fixpoint

/-- `m_get_insert_unique_pos`: rbt.hpp:1726-1758 (`x` is null at the end of the descent). -/
def getInsertUniquePos (lt : K → K → Bool) (hdr : Ptr) (k : K) : M (W K) (Ptr × Ptr) := do
  let (y, comp) ← insDescend lt k (← rd hdr).parent hdr true
  if comp then
    if y = (← rd hdr).left then pure (.null, y)
    else
      let j ← decrement y
      if (← cmp lt (← keyOf j) k) then pure (.null, y) else pure (j, .null)
  else
    if (← cmp lt (← keyOf y) k) then pure (.null, y) else pure (y, .null)

/-- `m_insert_unique`: rbt.hpp:1776-1791; `set::insert_nothrow`: set.hpp:312-326. -/
def insertUnique (lt : K → K → Bool) (hdr : Ptr) (v : K) : M (W K) (Ptr × Bool) := do
  let (x, p) ← getInsertUniquePos lt hdr v
  if p ≠ .null then
    let pos ← insert_ lt hdr x p v
    pure (pos, true)
  else pure (x, false)

/-- `m_lower_bound`: rbt.hpp:1552-1586. -/
def lowerBound (lt : K → K → Bool) (k : K) (x y : Ptr) : M (W K) Ptr := do
  if x ≠ .null then
    if !(← cmp lt (← keyOf x) k) then
      lowerBound lt k (← rd x).left x
    else
      lowerBound lt k (← rd x).right y
  else pure y
partial_fixpoint

/-- `m_upper_bound`: rbt.hpp:1588-1622. -/
def upperBound (lt : K → K → Bool) (k : K) (x y : Ptr) : M (W K) Ptr := do
  if x ≠ .null then
    if (← cmp lt k (← keyOf x)) then
      upperBound lt k (← rd x).left x
    else
      upperBound lt k (← rd x).right y
  else pure y
partial_fixpoint

/-- Loop of `equal_range`: rbt.hpp:1626-1650. -/
def equalRangeLoop (lt : K → K → Bool) (k : K) (x y : Ptr) : M (W K) (Ptr × Ptr) := do
  if x ≠ .null then
    if (← cmp lt (← keyOf x) k) then
      equalRangeLoop lt k (← rd x).right y
    else if (← cmp lt k (← keyOf x)) then
      equalRangeLoop lt k (← rd x).left x
    else
      let l ← lowerBound lt k (← rd x).left x
      let u ← upperBound lt k (← rd x).right y
      pure (l, u)
  else pure (y, y)
partial_fixpoint

/-- `equal_range`: rbt.hpp:1624-1678. -/
def equalRange (lt : K → K → Bool) (hdr : Ptr) (k : K) : M (W K) (Ptr × Ptr) := do
  equalRangeLoop lt k (← rd hdr).parent hdr

/-- `find`: rbt.hpp:2190-2204; set.hpp:344-357. -/
def find (lt : K → K → Bool) (hdr : Ptr) (k : K) : M (W K) Ptr := do
  let j ← lowerBound lt k (← rd hdr).parent hdr
  if j = hdr then pure hdr
  else if (← cmp lt k (← keyOf j)) then pure hdr else pure j

/-- `m_erase_aux(position)`: rbt.hpp:2142-2149. -/
def eraseAux (hdr z : Ptr) : M (W K) Unit := do
  let y ← rebalanceForErase z hdr
  destroyNode hdr y
  setCount hdr (· - 1)

/-- `erase(const_iterator)`: rbt.hpp:1191-1207; set.hpp:328-333. -/
def eraseIter (hdr z : Ptr) : M (W K) Ptr := do
  let r ← increment z
  eraseAux hdr z
  pure r

/-- `m_erase`: rbt.hpp:1538-1550: recursion to the right, loop to the left. -/
def mErase (hdr x : Ptr) : M (W K) Unit := do
  if x ≠ .null then
    mErase hdr (← rd x).right
    let y := (← rd x).left
    destroyNode hdr x
    mErase hdr y
  else pure ()
partial_fixpoint

/-- `clear`: rbt.hpp:1222-1230; set.hpp:305-310. -/
def clear (hdr : Ptr) : M (W K) Unit := do
  mErase hdr (← rd hdr).parent
  setLeft hdr hdr
  setParent hdr .null
  setRight hdr hdr
  setCount hdr (fun _ => 0)

/-- Loop of `m_erase_aux(first, last)`: rbt.hpp:2160-2163 `while (first != last) erase(first++);`. -/
def eraseRangeLoop (hdr first last : Ptr) : M (W K) Unit := do
  if first ≠ last then
    let nxt ← increment first
    let _ ← eraseIter hdr first
    eraseRangeLoop hdr nxt last
  else pure ()
partial_fixpoint

/-- `m_erase_aux(first, last)` and `erase(first, last)`: rbt.hpp:2151-2168, 1212-1217. -/
def eraseRange (hdr first last : Ptr) : M (W K) Ptr := do
  if first = (← begin_ hdr) ∧ last = hdr then
    clear hdr
  else
    eraseRangeLoop hdr first last
  pure last

/-- `erase(const Key&)`: rbt.hpp:2170-2178; set.hpp:335-340. -/
def eraseKey (lt : K → K → Bool) (hdr : Ptr) (k : K) : M (W K) Nat := do
  let (f, l) ← equalRange lt hdr k
  let old ← size hdr
  let _ ← eraseRange hdr f l
  pure (old - (← size hdr))

/-- `std::distance(first, last)` as used by `count`: rbt.hpp:2210-2211. -/
def distance (first last : Ptr) : M (W K) Nat := do
  if first ≠ last then
    let n ← distance (← increment first) last
    pure (n + 1)
  else pure 0
partial_fixpoint

/-- `count`: rbt.hpp:2206-2213. -/
def count (lt : K → K → Bool) (hdr : Ptr) (k : K) : M (W K) Nat := do
  let (f, l) ← equalRange lt hdr k
  distance f l

/-- Destructor: rbt.hpp:1026-1029, then the header goes out of scope. -/
def destroyTree (hdr : Ptr) : M (W K) Unit := do
  mErase hdr (← rd hdr).parent
  dropObj hdr

/-- `m_move_data(x, true_type)`: rbt.hpp:1349-1363. -/
def moveData (hdr src : Ptr) : M (W K) Unit := do
  setParent hdr (← rd src).parent
  setLeft hdr (← rd src).left
  setRight hdr (← rd src).right
  setParent (← rd hdr).parent hdr
  setParent src .null
  setLeft src src
  setRight src src
  let c := (← rd src).count
  setCount hdr (fun _ => c)
  setCount src (fun _ => 0)

/-- Move constructor: rbt.hpp:1009-1016; set.hpp:155-159. -/
def moveCtor (src : Ptr) : M (W K) Ptr := do
  let a := (← rd src).owner
  let hdr ← newTree a
  if (← rd src).parent ≠ .null then
    moveData hdr src
  pure hdr

end Nestl.RB
