import Verif.RBTree.Model
set_option autoImplicit false
/-
More of red_black_tree.hpp: structural copy, hinted insertion, emplacement, insertion of equivalent keys, swap and
move assignment.  `rbt.hpp` abbreviates nestl/implementation/detail/red_black_tree.hpp.
-/
namespace Nestl.RB
variable {K : Type}

/-- `m_clone_node`: rbt.hpp:732-747. -/
def cloneNode (hdr x : Ptr) : M (W K) Ptr := do
  let l ← createNode hdr (← keyOf x)
  if (← hasErr) then pure .null else do
  setColor l (← rd x).color
  setLeft l .null
  setRight l .null
  pure l

mutual
/-- `m_copy(err, x, p)`: rbt.hpp:1458-1536.  The `erase_guard` destructor is the `mErase hdr top` on the failing
paths. -/
def mCopy (hdr x p : Ptr) : M (W K) Ptr := do
  let top ← cloneNode hdr x
  if (← hasErr) then pure .null else do
  setParent top p
  if (← rd x).right ≠ .null then
    let r ← mCopy hdr (← rd x).right top
    setRight top r
    if (← hasErr) then
      mErase hdr top
      pure .null
    else mCopyLoop hdr top top (← rd x).left
  else mCopyLoop hdr top top (← rd x).left
partial_fixpoint
/-- The `while (x != 0)` loop of `m_copy`: rbt.hpp:1512-1533. -/
def mCopyLoop (hdr top p x : Ptr) : M (W K) Ptr := do
  if x ≠ .null then
    let y ← cloneNode hdr x
    if (← hasErr) then
      mErase hdr top
      pure .null
    else do
    setLeft p y
    setParent y p
    if (← rd x).right ≠ .null then
      let r ← mCopy hdr (← rd x).right y
      setRight y r
      if (← hasErr) then
        mErase hdr top
        pure .null
      else mCopyLoop hdr top y (← rd x).left
    else mCopyLoop hdr top y (← rd x).left
  else pure top
partial_fixpoint
end

/-- `alloc_on_copy`: allocator_traits_helper.hpp:58-76.  `prop` is the allocator's
`propagate_on_container_copy_assignment`; copying an allocator is assumed not to fail. -/
def allocOnCopy (prop : Bool) (hdr src : Ptr) : M (W K) Unit := do
  if prop then
    let a := (← rd src).owner
    modCell hdr fun n => { n with owner := a }
  else pure ()

/-- `copy_nothrow`: rbt.hpp:1031-1077; set.hpp:186-192.  The comparator assignment may fail (`tryCtor`); the
comparator itself is a parameter of the model, so its value is not copied. -/
def copyNothrow (prop : Bool) (hdr src : Ptr) : M (W K) Unit := do
  if hdr ≠ src then
    clear hdr
    allocOnCopy prop hdr src
    if (← hasErr) then pure () else do
    let _ ← tryCtor
    if (← hasErr) then pure () else do
    if (← rd src).parent ≠ .null then
      let link ← mCopy hdr (← rd src).parent hdr
      if (← hasErr) then pure () else do
      setParent hdr link
      setLeft hdr (← minLoop (← rd hdr).parent)
      setRight hdr (← maxLoop (← rd hdr).parent)
      let c := (← rd src).count
      setCount hdr (fun _ => c)
    else pure ()
  else pure ()

/-- `m_get_insert_hint_unique_pos`: rbt.hpp:1802-1874. -/
def getInsertHintUniquePos (lt : K → K → Bool) (hdr pos : Ptr) (k : K) : M (W K) (Ptr × Ptr) := do
  if pos = hdr then
    if 0 < (← size hdr) then
      if (← cmp lt (← keyOf (← rd hdr).right) k) then pure (.null, (← rd hdr).right)
      else getInsertUniquePos lt hdr k
    else getInsertUniquePos lt hdr k
  else if (← cmp lt k (← keyOf pos)) then
    if pos = (← rd hdr).left then pure ((← rd hdr).left, (← rd hdr).left)
    else
      let before ← decrement pos
      if (← cmp lt (← keyOf before) k) then
        if (← rd before).right = .null then pure (.null, before) else pure (pos, pos)
      else getInsertUniquePos lt hdr k
  else if (← cmp lt (← keyOf pos) k) then
    if pos = (← rd hdr).right then pure (.null, (← rd hdr).right)
    else
      let after ← increment pos
      if (← cmp lt k (← keyOf after)) then
        if (← rd pos).right = .null then pure (.null, pos) else pure (after, after)
      else getInsertUniquePos lt hdr k
  else pure (pos, .null)

/-- `m_insert_unique_at`: rbt.hpp:1877-1890. -/
def insertUniqueAt (lt : K → K → Bool) (hdr pos : Ptr) (v : K) : M (W K) Ptr := do
  let (x, p) ← getInsertHintUniquePos lt hdr pos v
  if p ≠ .null then insert_ lt hdr x p v else pure x

/-- `m_insert_unique(err, first, last)`: rbt.hpp:2116-2129; the range is given by the values it yields. -/
def insertUniqueRange (lt : K → K → Bool) (hdr : Ptr) : List K → M (W K) Unit
  | [] => pure ()
  | v :: vs => do
    let _ ← insertUniqueAt lt hdr hdr v
    if (← hasErr) then pure () else insertUniqueRange lt hdr vs

/-- `m_insert_node`: rbt.hpp:1976-1984. -/
def insertNode (lt : K → K → Bool) (hdr x p z : Ptr) : M (W K) Ptr := do
  let insertLeft ← (if x ≠ .null then pure true else if p = hdr then pure true
    else do cmp lt (← keyOf z) (← keyOf p))
  insertAndRebalance insertLeft z p hdr
  setCount hdr (· + 1)
  pure z

/-- `m_emplace_unique`: rbt.hpp:2012-2032. -/
def emplaceUnique (lt : K → K → Bool) (hdr : Ptr) (v : K) : M (W K) (Ptr × Bool) := do
  let z ← createNode hdr v
  if (← hasErr) then pure (hdr, false) else do
  let (x, p) ← getInsertUniquePos lt hdr (← keyOf z)
  if p ≠ .null then
    let it ← insertNode lt hdr x p z
    pure (it, true)
  else
    destroyNode hdr z
    pure (x, false)

/-- `m_emplace_hint_unique`: rbt.hpp:2059-2085. -/
def emplaceHintUnique (lt : K → K → Bool) (hdr pos : Ptr) (v : K) : M (W K) Ptr := do
  let z ← createNode hdr v
  if (← hasErr) then pure hdr else do
  let (x, p) ← getInsertHintUniquePos lt hdr pos (← keyOf z)
  if p ≠ .null then insertNode lt hdr x p z
  else
    destroyNode hdr z
    pure x

/-- `lower_bound(k)`: rbt.hpp:1242-1248. -/
def lowerBoundKey (lt : K → K → Bool) (hdr : Ptr) (k : K) : M (W K) Ptr := do
  lowerBound lt k (← rd hdr).parent hdr

/-- `upper_bound(k)`: rbt.hpp:1250-1256. -/
def upperBoundKey (lt : K → K → Bool) (hdr : Ptr) (k : K) : M (W K) Ptr := do
  upperBound lt k (← rd hdr).parent hdr

end Nestl.RB
