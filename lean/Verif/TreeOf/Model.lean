import Verif.RBTree.ModelSwap
import Verif.NodeOf.Elems
set_option autoImplicit false
/-
Red-black trees (nestl/implementation/detail/red_black_tree.hpp, below: rbt.hpp) and sets (nestl/implementation/set.hpp) whose
elements are objects of any class (`VO.Elem`).  A node holds the address of its element.  Functions that only follow and change
links are those of Verif/RBTree/Model*.lean.  Keys are objects, and the comparator `less` is a program on objects.
-/
namespace Nestl.TO
open Nestl.VO (ElemOps)
open Nestl.NO (NS Arg onO onI failed construct destroyElem compare)
open Nestl.RB (TNode)

/-- The value in a `rb_tree_node`: rbt.hpp:85-92. -/
instance : NO.Cell TNode where
  get c := c.val
  put x c := { c with val := x }
  abs f c := ⟨c.color, c.parent, c.left, c.right, c.val.bind f, c.owner, c.count⟩
  get_put _ _ := rfl
  get_abs _ _ := rfl
  abs_put _ _ _ := rfl
  abs_congr f g c h := by
    rcases e : c.val with _ | q
    · rfl
    · simp only [Option.bind_some, h q e]

/-- Trees of objects, and the objects. -/
abbrev ST (S : Type) := NS TNode S

variable {S : Type}

/-- Access to the node `p`: rbt.hpp:33-41. -/
def node (p : Ptr) : M (ST S) (TNode Ptr) := onO (rd p)

/-- `s_key(x)`: rbt.hpp:862-880, 914-925: the object in the node `p`. -/
def keyOf (p : Ptr) : M (ST S) Ptr := onO (RB.keyOf p)

/-! ### Destruction -/

/-- `m_destroy_node`: rbt.hpp:724-730, with nestl/detail/destroy.hpp:17-21. -/
def destroyNode (E : ElemOps S) (hdr p : Ptr) : M (ST S) Unit := do
  destroyElem E p
  onO (RB.putNode hdr p)

/-- `m_erase_aux(position)`: rbt.hpp:2142-2149. -/
def eraseAux (E : ElemOps S) (hdr z : Ptr) : M (ST S) Unit := do
  let y ← onO (RB.rebalanceForErase z hdr)
  destroyNode E hdr y
  onO (RB.setCount hdr (· - 1))

/-- `erase(const_iterator)`: rbt.hpp:1191-1207; set.hpp:328-333. -/
def eraseIter (E : ElemOps S) (hdr z : Ptr) : M (ST S) Ptr := do
  let r ← onO (RB.increment z)
  eraseAux E hdr z
  pure r

/-- `m_erase`: rbt.hpp:1538-1550. -/
def mErase (E : ElemOps S) (hdr x : Ptr) : M (ST S) Unit := do
  if x ≠ .null then
    mErase E hdr (← node x).right
    let y := (← node x).left
    destroyNode E hdr x
    mErase E hdr y
  else pure ()
partial_fixpoint

/-- The links of an empty tree: rbt.hpp:1225-1229. -/
def resetLinks {K : Type} (hdr : Ptr) : M (RB.W K) Unit := do
  RB.setLeft hdr hdr
  RB.setParent hdr .null
  RB.setRight hdr hdr
  RB.setCount hdr (fun _ => 0)

/-- `clear`: rbt.hpp:1222-1230; set.hpp:305-310. -/
def clear (E : ElemOps S) (hdr : Ptr) : M (ST S) Unit := do
  mErase E hdr (← node hdr).parent
  onO (resetLinks hdr)

/-- Loop of `m_erase_aux(first, last)`: rbt.hpp:2160-2163. -/
def eraseRangeLoop (E : ElemOps S) (hdr first last : Ptr) : M (ST S) Unit := do
  if first ≠ last then
    let nxt ← onO (RB.increment first)
    let _ ← eraseIter E hdr first
    eraseRangeLoop E hdr nxt last
  else pure ()
partial_fixpoint

/-- `m_erase_aux(first, last)` and `erase(first, last)`: rbt.hpp:2151-2168, 1212-1217. -/
def eraseRange (E : ElemOps S) (hdr first last : Ptr) : M (ST S) Ptr := do
  if first = (← onO (RB.begin_ hdr)) ∧ last = hdr then
    clear E hdr
  else
    eraseRangeLoop E hdr first last
  pure last

/-- Destructor: rbt.hpp:1026-1029, then the header goes out of scope. -/
def destroyTree (E : ElemOps S) (hdr : Ptr) : M (ST S) Unit := do
  mErase E hdr (← node hdr).parent
  onO (dropObj hdr)

/-! ### Lookup -/

variable (less : Ptr → Ptr → M S Bool)

/-- Descent of `m_get_insert_unique_pos`: rbt.hpp:1733-1740. -/
def insDescend (k x y : Ptr) (comp : Bool) : M (ST S) (Ptr × Bool) := do
  if x ≠ .null then
    let c ← compare less k (← keyOf x)
    let n ← node x
    insDescend k (if c then n.left else n.right) x c
  else pure (y, comp)
partial_fixpoint

/-- `m_get_insert_unique_pos`: rbt.hpp:1726-1758. -/
def getInsertUniquePos (hdr k : Ptr) : M (ST S) (Ptr × Ptr) := do
  let (y, comp) ← insDescend less k (← node hdr).parent hdr true
  if comp then
    if y = (← node hdr).left then pure (.null, y)
    else
      let j ← onO (RB.decrement y)
      if (← compare less (← keyOf j) k) then pure (.null, y) else pure (j, .null)
  else
    if (← compare less (← keyOf y) k) then pure (.null, y) else pure (y, .null)

/-- `m_lower_bound`: rbt.hpp:1552-1586. -/
def lowerBound (k x y : Ptr) : M (ST S) Ptr := do
  if x ≠ .null then
    if !(← compare less (← keyOf x) k) then
      lowerBound k (← node x).left x
    else
      lowerBound k (← node x).right y
  else pure y
partial_fixpoint

/-- `m_upper_bound`: rbt.hpp:1588-1622. -/
def upperBound (k x y : Ptr) : M (ST S) Ptr := do
  if x ≠ .null then
    if (← compare less k (← keyOf x)) then
      upperBound k (← node x).left x
    else
      upperBound k (← node x).right y
  else pure y
partial_fixpoint

/-- Loop of `equal_range`: rbt.hpp:1626-1650. -/
def equalRangeLoop (k x y : Ptr) : M (ST S) (Ptr × Ptr) := do
  if x ≠ .null then
    if (← compare less (← keyOf x) k) then
      equalRangeLoop k (← node x).right y
    else if (← compare less k (← keyOf x)) then
      equalRangeLoop k (← node x).left x
    else
      let l ← lowerBound less k (← node x).left x
      let u ← upperBound less k (← node x).right y
      pure (l, u)
  else pure (y, y)
partial_fixpoint

/-- `equal_range`: rbt.hpp:1624-1678. -/
def equalRange (hdr k : Ptr) : M (ST S) (Ptr × Ptr) := do
  equalRangeLoop less k (← node hdr).parent hdr

/-- `find`: rbt.hpp:2190-2204; set.hpp:344-357. -/
def find (hdr k : Ptr) : M (ST S) Ptr := do
  let j ← lowerBound less k (← node hdr).parent hdr
  if j = hdr then pure hdr
  else if (← compare less k (← keyOf j)) then pure hdr else pure j

/-- `lower_bound(k)`: rbt.hpp:1242-1248. -/
def lowerBoundKey (hdr k : Ptr) : M (ST S) Ptr := do
  lowerBound less k (← node hdr).parent hdr

/-- `upper_bound(k)`: rbt.hpp:1250-1256. -/
def upperBoundKey (hdr k : Ptr) : M (ST S) Ptr := do
  upperBound less k (← node hdr).parent hdr

/-- `count`: rbt.hpp:2206-2213. -/
def count (hdr k : Ptr) : M (ST S) Nat := do
  let (f, l) ← equalRange less hdr k
  onO (RB.distance f l)

/-- `erase(const Key&)`: rbt.hpp:2170-2178; set.hpp:335-340. -/
def eraseKey (E : ElemOps S) (hdr k : Ptr) : M (ST S) Nat := do
  let (f, l) ← equalRange less hdr k
  let old ← onO (RB.size hdr)
  let _ ← eraseRange E hdr f l
  pure (old - (← onO (RB.size hdr)))

/-- `erase(const Key* first, const Key* last)`: rbt.hpp:2180-2188; the array is given by the objects in it. -/
def eraseKeys (E : ElemOps S) (hdr : Ptr) : List Ptr → M (ST S) Unit
  | [] => pure ()
  | k :: ks => do
    let _ ← eraseKey less E hdr k
    eraseKeys E hdr ks

/-- `m_get_insert_hint_unique_pos`: rbt.hpp:1802-1874. -/
def getInsertHintUniquePos (hdr pos k : Ptr) : M (ST S) (Ptr × Ptr) := do
  if pos = hdr then
    if 0 < (← onO (RB.size hdr)) then
      if (← compare less (← keyOf (← node hdr).right) k) then pure (.null, (← node hdr).right)
      else getInsertUniquePos less hdr k
    else getInsertUniquePos less hdr k
  else if (← compare less k (← keyOf pos)) then
    if pos = (← node hdr).left then pure ((← node hdr).left, (← node hdr).left)
    else
      let before ← onO (RB.decrement pos)
      if (← compare less (← keyOf before) k) then
        if (← node before).right = .null then pure (.null, before) else pure (pos, pos)
      else getInsertUniquePos less hdr k
  else if (← compare less (← keyOf pos) k) then
    if pos = (← node hdr).right then pure (.null, (← node hdr).right)
    else
      let after ← onO (RB.increment pos)
      if (← compare less k (← keyOf after)) then
        if (← node pos).right = .null then pure (.null, pos) else pure (after, after)
      else getInsertUniquePos less hdr k
  else pure (pos, .null)

/-- `m_get_insert_equal_pos`: rbt.hpp:1760-1774. -/
def getInsertEqualPos (hdr k : Ptr) : M (ST S) (Ptr × Ptr) := do
  let (y, _) ← insDescend less k (← node hdr).parent hdr true
  pure (.null, y)

/-- `m_get_insert_hint_equal_pos`: rbt.hpp:1890-1957. -/
def getInsertHintEqualPos (hdr pos k : Ptr) : M (ST S) (Ptr × Ptr) := do
  if pos = hdr then
    if 0 < (← onO (RB.size hdr)) then
      if !(← compare less k (← keyOf (← node hdr).right)) then pure (.null, (← node hdr).right)
      else getInsertEqualPos less hdr k
    else getInsertEqualPos less hdr k
  else if !(← compare less (← keyOf pos) k) then
    if pos = (← node hdr).left then pure ((← node hdr).left, (← node hdr).left)
    else
      let before ← onO (RB.decrement pos)
      if !(← compare less k (← keyOf before)) then
        if (← node before).right = .null then pure (.null, before) else pure (pos, pos)
      else getInsertEqualPos less hdr k
  else
    if pos = (← node hdr).right then pure (.null, (← node hdr).right)
    else
      let after ← onO (RB.increment pos)
      if !(← compare less (← keyOf after) k) then
        if (← node pos).right = .null then pure (.null, pos) else pure (after, after)
      else pure (.null, .null)

/-- The descent of `m_insert_equal_lower` (rbt.hpp:1448-1454) and `m_insert_equal_lower_node` (rbt.hpp:2002-2008). -/
def lowerDescend (k x y : Ptr) : M (ST S) Ptr := do
  if x ≠ .null then
    let c ← compare less (← keyOf x) k
    let n ← node x
    lowerDescend k (if !c then n.left else n.right) x
  else pure y
partial_fixpoint

/-! ### Insertion -/

/-- `m_create_node`: rbt.hpp:702-722 with the deallocation guard (destroy.hpp:62-89) and class_operations.hpp:32-65. -/
def createNode (E : ElemOps S) (hdr : Ptr) (a : Arg) : M (ST S) Ptr := do
  let al := (← node hdr).owner
  let l ← onO (allocCell fun junk => { junk with val := none, owner := al, count := 0 })
  if (← failed) then pure .null else do
  construct E l a
  if (← failed) then
    onO (RB.putNode hdr l)   -- ~guard
    pure .null
  else
    pure l                   -- guard.release()

/-- Linking a node that is ready: rbt.hpp:1416-1421, 1980-1983. -/
def linkNode {K : Type} (insertLeft : Bool) (hdr p l : Ptr) : M (RB.W K) Ptr := do
  RB.insertAndRebalance insertLeft l p hdr
  RB.setCount hdr (· + 1)
  pure l

/-- The object that a constructor argument refers to. -/
def theArg : Arg → Ptr
  | .obj t => t
  | .mov t => t
  | .none => .null

/-- `m_insert_`: rbt.hpp:1405-1422.  The key of the argument is the argument itself. -/
def insert_ (E : ElemOps S) (hdr x p : Ptr) (a : Arg) : M (ST S) Ptr := do
  let insertLeft ← (if x ≠ .null then pure true else if p = hdr then pure true
    else do compare less (theArg a) (← keyOf p))
  let l ← createNode E hdr a
  if (← failed) then pure hdr else onO (linkNode insertLeft hdr p l)

/-- `m_insert_unique`: rbt.hpp:1776-1791; `set::insert_nothrow`: set.hpp:312-326. -/
def insertUnique (E : ElemOps S) (hdr : Ptr) (a : Arg) : M (ST S) (Ptr × Bool) := do
  let (x, p) ← getInsertUniquePos less hdr (theArg a)
  if p ≠ .null then
    let pos ← insert_ less E hdr x p a
    pure (pos, true)
  else pure (x, false)

/-- `m_insert_unique_at`: rbt.hpp:1877-1890. -/
def insertUniqueAt (E : ElemOps S) (hdr pos : Ptr) (a : Arg) : M (ST S) Ptr := do
  let (x, p) ← getInsertHintUniquePos less hdr pos (theArg a)
  if p ≠ .null then insert_ less E hdr x p a else pure x

/-- `m_insert_node`: rbt.hpp:1976-1984. -/
def insertNode (hdr x p z : Ptr) : M (ST S) Ptr := do
  let insertLeft ← (if x ≠ .null then pure true else if p = hdr then pure true
    else do compare less (← keyOf z) (← keyOf p))
  onO (linkNode insertLeft hdr p z)

/-- `m_emplace_unique`: rbt.hpp:2012-2032. -/
def emplaceUnique (E : ElemOps S) (hdr : Ptr) (a : Arg) : M (ST S) (Ptr × Bool) := do
  let z ← createNode E hdr a
  if (← failed) then pure (hdr, false) else do
  let (x, p) ← getInsertUniquePos less hdr (← keyOf z)
  if p ≠ .null then
    let it ← insertNode less hdr x p z
    pure (it, true)
  else
    destroyNode E hdr z
    pure (x, false)

/-- `m_emplace_hint_unique`: rbt.hpp:2059-2085. -/
def emplaceHintUnique (E : ElemOps S) (hdr pos : Ptr) (a : Arg) : M (ST S) Ptr := do
  let z ← createNode E hdr a
  if (← failed) then pure hdr else do
  let (x, p) ← getInsertHintUniquePos less hdr pos (← keyOf z)
  if p ≠ .null then insertNode less hdr x p z
  else
    destroyNode E hdr z
    pure x

/-- `m_insert_lower`: rbt.hpp:1424-1441. -/
def insertLower (E : ElemOps S) (hdr p : Ptr) (a : Arg) : M (ST S) Ptr := do
  let insertLeft ← (if p = hdr then pure true else do pure (!(← compare less (← keyOf p) (theArg a))))
  let l ← createNode E hdr a
  if (← failed) then pure hdr else onO (linkNode insertLeft hdr p l)

/-- `m_insert_equal_lower`: rbt.hpp:1443-1456. -/
def insertEqualLower (E : ElemOps S) (hdr : Ptr) (a : Arg) : M (ST S) Ptr := do
  let y ← lowerDescend less (theArg a) (← node hdr).parent hdr
  insertLower less E hdr y a

/-- `m_insert_lower_node`: rbt.hpp:1987-1995. -/
def insertLowerNode (hdr p z : Ptr) : M (ST S) Ptr := do
  let insertLeft ← (if p = hdr then pure true else do pure (!(← compare less (← keyOf p) (← keyOf z))))
  onO (linkNode insertLeft hdr p z)

/-- `m_insert_equal_lower_node`: rbt.hpp:1998-2010. -/
def insertEqualLowerNode (hdr z : Ptr) : M (ST S) Ptr := do
  let y ← lowerDescend less (← keyOf z) (← node hdr).parent hdr
  insertLowerNode less hdr y z

/-- `m_emplace_equal`: rbt.hpp:2034-2056. -/
def emplaceEqual (E : ElemOps S) (hdr : Ptr) (a : Arg) : M (ST S) Ptr := do
  let z ← createNode E hdr a
  if (← failed) then pure hdr else do
  let (x, p) ← getInsertEqualPos less hdr (← keyOf z)
  insertNode less hdr x p z

/-- `m_emplace_hint_equal`: rbt.hpp:2088-2114. -/
def emplaceHintEqual (E : ElemOps S) (hdr pos : Ptr) (a : Arg) : M (ST S) Ptr := do
  let z ← createNode E hdr a
  if (← failed) then pure hdr else do
  let (x, p) ← getInsertHintEqualPos less hdr pos (← keyOf z)
  if p ≠ .null then insertNode less hdr x p z
  else insertEqualLowerNode less hdr z

/-! ### Copying -/

/-- The links of a new copy of a node: rbt.hpp:741-745. -/
def cloneLinks {K : Type} (l : Ptr) (c : RB.Color) : M (RB.W K) Ptr := do
  RB.setColor l c
  RB.setLeft l .null
  RB.setRight l .null
  pure l

/-- `m_clone_node`: rbt.hpp:732-747. -/
def cloneNode (E : ElemOps S) (hdr x : Ptr) : M (ST S) Ptr := do
  let l ← createNode E hdr (.obj (← keyOf x))
  if (← failed) then pure .null else do
  onO (cloneLinks l (← node x).color)

mutual
/-- `m_copy(err, x, p)`: rbt.hpp:1458-1536, with the `erase_guard` on the failing paths. -/
def mCopy (E : ElemOps S) (hdr x p : Ptr) : M (ST S) Ptr := do
  let top ← cloneNode E hdr x
  if (← failed) then pure .null else do
  onO (RB.setParent top p)
  if (← node x).right ≠ .null then
    let r ← mCopy E hdr (← node x).right top
    onO (RB.setRight top r)
    if (← failed) then
      mErase E hdr top
      pure .null
    else mCopyLoop E hdr top top (← node x).left
  else mCopyLoop E hdr top top (← node x).left
partial_fixpoint
/-- The `while (x != 0)` loop of `m_copy`: rbt.hpp:1512-1533. -/
def mCopyLoop (E : ElemOps S) (hdr top p x : Ptr) : M (ST S) Ptr := do
  if x ≠ .null then
    let y ← cloneNode E hdr x
    if (← failed) then
      mErase E hdr top
      pure .null
    else do
    onO (RB.setLeft p y)
    onO (RB.setParent y p)
    if (← node x).right ≠ .null then
      let r ← mCopy E hdr (← node x).right y
      onO (RB.setRight y r)
      if (← failed) then
        mErase E hdr top
        pure .null
      else mCopyLoop E hdr top y (← node x).left
    else mCopyLoop E hdr top y (← node x).left
  else pure top
partial_fixpoint
end

/-- Adopting the copied nodes: rbt.hpp:1067-1075. -/
def adopt {K : Type} (hdr src link : Ptr) : M (RB.W K) Unit := do
  RB.setParent hdr link
  RB.setLeft hdr (← RB.minLoop (← rd hdr).parent)
  RB.setRight hdr (← RB.maxLoop (← rd hdr).parent)
  let c := (← rd src).count
  RB.setCount hdr (fun _ => c)

/-- `copy_nothrow`: rbt.hpp:1031-1077; set.hpp:186-192.  The comparator assignment may fail (`tryCtor`); the comparator itself is
a parameter of the model. -/
def copyNothrow (E : ElemOps S) (prop : Bool) (hdr src : Ptr) : M (ST S) Unit := do
  if hdr ≠ src then
    clear E hdr
    onO (RB.allocOnCopy prop hdr src)
    if (← failed) then pure () else do
    let _ ← onO tryCtor
    if (← failed) then pure () else do
    if (← node src).parent ≠ .null then
      let link ← mCopy E hdr (← node src).parent hdr
      if (← failed) then pure () else onO (adopt hdr src link)
    else pure ()
  else pure ()

/-- `m_move_assign`: rbt.hpp:1383-1402 (see `RB.moveAssign`). -/
def moveAssign (E : ElemOps S) (prop : Bool) (hdr src : Ptr) : M (ST S) Bool := do
  let a := (← node hdr).owner
  let b := (← node src).owner
  if prop = true ∨ a = b then
    clear E hdr
    if (← node src).parent ≠ .null then onO (RB.moveData hdr src) else pure ()
    onO (RB.allocOnMove prop hdr src)
    pure true
  else pure false

/-! ### Comparison -/

/-- `nestl::equal(first1, last1, first2)` on tree iterators: algorithm.hpp:69-80; `eqv` is `operator==` of the elements. -/
def equalFrom (eqv : Ptr → Ptr → M S Bool) (f1 l1 f2 : Ptr) : M (ST S) Bool := do
  if f1 = l1 then pure true else
    let x ← keyOf f1
    let y ← keyOf f2
    if ¬ (← onI (eqv x y)) then pure false
    else
      let g1 ← onO (RB.increment f1)
      let g2 ← onO (RB.increment f2)
      equalFrom eqv g1 l1 g2
partial_fixpoint

/-- `operator==`: rbt.hpp:1282-1288. -/
def treeEq (eqv : Ptr → Ptr → M S Bool) (x y : Ptr) : M (ST S) Bool := do
  if (← onO (RB.size x)) = (← onO (RB.size y)) then
    equalFrom eqv (← onO (RB.begin_ x)) (← onO (RB.end_ x)) (← onO (RB.begin_ y))
  else pure false

/-- `nestl::lexicographical_compare` on tree iterators: algorithm.hpp:83-101; `lss` is `operator<` of the elements. -/
def lexFrom (lss : Ptr → Ptr → M S Bool) (f1 l1 f2 l2 : Ptr) : M (ST S) Bool := do
  if f1 ≠ l1 ∧ f2 ≠ l2 then
    let x ← keyOf f1
    let y ← keyOf f2
    if (← onI (lss x y)) then pure true
    else
      let y' ← keyOf f2
      let x' ← keyOf f1
      if (← onI (lss y' x')) then pure false
      else
        let g1 ← onO (RB.increment f1)
        let g2 ← onO (RB.increment f2)
        lexFrom lss g1 l1 g2 l2
  else pure (decide (f1 = l1 ∧ f2 ≠ l2))
partial_fixpoint

/-- `operator<`: rbt.hpp:1290-1296. -/
def treeLess (lss : Ptr → Ptr → M S Bool) (x y : Ptr) : M (ST S) Bool := do
  lexFrom lss (← onO (RB.begin_ x)) (← onO (RB.end_ x)) (← onO (RB.begin_ y)) (← onO (RB.end_ y))

end Nestl.TO
