import Verif.RBTree.ModelEqual
set_option autoImplicit false
/-
More of red_black_tree.hpp (`rbt.hpp`): swap, move assignment, erasing several keys, comparison of trees and the self check.

`rb_tree::swap`, `m_move_assign` and `__rb_verify` use names that the library does not define (`_S_on_swap`,
`_S_propagate_on_move_assign`, `_S_always_equal`, the body of `rb_tree_black_count`); they are modelled by intent, with the
meaning these names have in libstdc++, from which the file is derived.
-/
namespace Nestl.RB
variable {K : Type}

/-- The handing over of a tree inside `swap` (rbt.hpp:1688-1695, with the roles exchanged 1700-1707). -/
def moveLinks (dst src : Ptr) : M (W K) Unit := do
  setParent dst (← rd src).parent
  setLeft dst (← rd src).left
  setRight dst (← rd src).right
  setParent (← rd dst).parent dst
  setParent src .null
  setLeft src src
  setRight src src

/-- `std::swap` of the roots, the leftmost and the rightmost nodes: rbt.hpp:1711-1713. -/
def swapLinks (s t : Ptr) : M (W K) Unit := do
  let a := (← rd s).parent
  setParent s (← rd t).parent
  setParent t a
  let b := (← rd s).left
  setLeft s (← rd t).left
  setLeft t b
  let c := (← rd s).right
  setRight s (← rd t).right
  setRight t c

/-- `std::swap(m_node_count, ...)`: rbt.hpp:1719. -/
def swapCounts (s t : Ptr) : M (W K) Unit := do
  let n := (← rd s).count
  let m := (← rd t).count
  setCount s (fun _ => m)
  setCount t (fun _ => n)

/-- `_S_on_swap`: rbt.hpp:1722-1723.  `prop` is the allocator's `propagate_on_container_swap`. -/
def allocOnSwap (prop : Bool) (s t : Ptr) : M (W K) Unit := do
  if prop then
    let a := (← rd s).owner
    let b := (← rd t).owner
    modCell s fun n => { n with owner := b }
    modCell t fun n => { n with owner := a }
  else pure ()

/-- `swap`: rbt.hpp:1680-1724.  The comparators are exchanged by the code (line 1720); they are a parameter of the model. -/
def swapTrees (prop : Bool) (s t : Ptr) : M (W K) Unit := do
  if (← rd s).parent = .null then
    if (← rd t).parent ≠ .null then moveLinks s t else pure ()
  else if (← rd t).parent = .null then moveLinks t s
  else
    swapLinks s t
    setParent (← rd s).parent s
    setParent (← rd t).parent t
  swapCounts s t
  allocOnSwap prop s t

/-- `alloc_on_move`: allocator_traits_helper.hpp:38-56. -/
def allocOnMove (prop : Bool) (hdr src : Ptr) : M (W K) Unit := do
  if prop then
    let a := (← rd src).owner
    modCell hdr fun n => { n with owner := a }
  else pure ()

/-- `m_move_assign`: rbt.hpp:1383-1402.  `prop` is the allocator's `propagate_on_container_move_assignment`; always equal
allocators have equal identities in the model. -/
def moveAssign (prop : Bool) (hdr src : Ptr) : M (W K) Bool := do
  let a := (← rd hdr).owner
  let b := (← rd src).owner
  if prop = true ∨ a = b then
    clear hdr
    if (← rd src).parent ≠ .null then moveData hdr src else pure ()
    allocOnMove prop hdr src
    pure true
  else pure false

/-- `erase(const Key* first, const Key* last)`: rbt.hpp:2180-2188; the array is given by the keys in it. -/
def eraseKeys (lt : K → K → Bool) (hdr : Ptr) : List K → M (W K) Unit
  | [] => pure ()
  | k :: ks => do
    let _ ← eraseKey lt hdr k
    eraseKeys lt hdr ks

/-- `nestl::equal(first1, last1, first2)` on tree iterators: algorithm.hpp:69-80. -/
def equalFrom (eq : K → K → Bool) (f1 l1 f2 : Ptr) : M (W K) Bool := do
  if f1 = l1 then pure true else
    if ¬ eq (← keyOf f1) (← keyOf f2) then pure false
    else
      let g1 ← increment f1
      let g2 ← increment f2
      equalFrom eq g1 l1 g2
partial_fixpoint

/-- `operator==`: rbt.hpp:1282-1288 (`!=`: 1298-1304 is its negation). -/
def treeEq (eq : K → K → Bool) (x y : Ptr) : M (W K) Bool := do
  if (← size x) = (← size y) then equalFrom eq (← begin_ x) (← end_ x) (← begin_ y) else pure false

/-- `nestl::lexicographical_compare` on tree iterators: algorithm.hpp:83-101. -/
def lexFrom (less : K → K → Bool) (f1 l1 f2 l2 : Ptr) : M (W K) Bool := do
  if f1 ≠ l1 ∧ f2 ≠ l2 then
    if less (← keyOf f1) (← keyOf f2) then pure true
    else if less (← keyOf f2) (← keyOf f1) then pure false
    else
      let g1 ← increment f1
      let g2 ← increment f2
      lexFrom less g1 l1 g2 l2
  else pure (decide (f1 = l1 ∧ f2 ≠ l2))
partial_fixpoint

/-- `operator<`: rbt.hpp:1290-1296 (`>`: 1306-1312, `<=`: 1314-1320, `>=`: 1322-1328 exchange the operands or negate). -/
def treeLess (less : K → K → Bool) (x y : Ptr) : M (W K) Bool := do
  lexFrom less (← begin_ x) (← end_ x) (← begin_ y) (← end_ y)

/-- `rb_tree_black_count`: declared in rbt.hpp:2215-2216, defined nowhere; by intent the number of black nodes on the path
from `node` up to `root`, both included. -/
def blackCount (node root : Ptr) : M (W K) Nat := do
  let n ← rd node
  let one := if n.color = .black then 1 else 0
  if node = root then pure one
  else
    let m ← blackCount n.parent root
    pure (m + one)
partial_fixpoint

/-- `L && L->_M_color == _S_red` for a child pointer: rbt.hpp:2238. -/
def redChild (x : Ptr) : M (W K) Bool := do
  if x ≠ .null then pure (decide ((← rd x).color = .red)) else pure false

/-- `C && compare(_S_key(x), _S_key(y))` for a child pointer `c`: rbt.hpp:2244, 2248. -/
def misordered (lt : K → K → Bool) (c x y : Ptr) : M (W K) Bool := do
  if c ≠ .null then cmp lt (← keyOf x) (← keyOf y) else pure false

/-- One step of the loop of `__rb_verify`: rbt.hpp:2232-2256. -/
def verifyNode (lt : K → K → Bool) (hdr x : Ptr) (len : Nat) : M (W K) Bool := do
  let n ← rd x
  let leftRed ← redChild n.left
  let rightRed ← redChild n.right
  if n.color = .red ∧ (leftRed = true ∨ rightRed = true) then pure false else do
  let badLeft ← misordered lt n.left x n.left
  if badLeft then pure false else do
  let badRight ← misordered lt n.right n.right x
  if badRight then pure false else do
  if n.left = .null ∧ n.right = .null then
    let c ← blackCount x (← rd hdr).parent
    pure (decide (c = len))
  else pure true

/-- The loop of `__rb_verify`: rbt.hpp:2230-2257. -/
def verifyFrom (lt : K → K → Bool) (hdr it : Ptr) (len : Nat) : M (W K) Bool := do
  if it = hdr then pure true else
    if (← verifyNode lt hdr it len) then
      let nx ← increment it
      verifyFrom lt hdr nx len
    else pure false
partial_fixpoint

/-- `__rb_verify`: rbt.hpp:2218-2269. -/
def rbVerify (lt : K → K → Bool) (hdr : Ptr) : M (W K) Bool := do
  let h ← rd hdr
  if h.count = 0 ∨ h.left = hdr then
    pure (decide (h.count = 0 ∧ h.left = hdr ∧ h.right = hdr))
  else
    let len ← blackCount h.left h.parent
    if (← verifyFrom lt hdr h.left len) then
      if h.left ≠ (← sMinimum h.parent) then pure false else
      if h.right ≠ (← sMaximum h.parent) then pure false else pure true
    else pure false

end Nestl.RB
