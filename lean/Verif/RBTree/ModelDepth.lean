import Verif.RBTree.ModelSwap
set_option autoImplicit false
/-
The recursive functions of red_black_tree.hpp on a machine with a bounded call stack: the same programs, but a call chain
may contain at most `d` activations of `m_erase` and `m_copy`; one more is the fault `stackOverflow`.  The other functions
of the tree do not call themselves.
-/
namespace Nestl.RB
variable {K : Type}

/-- The loop of `m_erase`: rbt.hpp:1540-1549; `rec` is the recursive call. -/
def mEraseW (rec : Ptr → M (W K) Unit) (hdr x : Ptr) : M (W K) Unit := do
  if x ≠ .null then
    rec (← rd x).right
    let y := (← rd x).left
    destroyNode hdr x
    mEraseW rec hdr y
  else pure ()
partial_fixpoint

/-- `m_erase` with room for `d` activations: rbt.hpp:1538-1550. -/
def mEraseD (hdr : Ptr) : Nat → Ptr → M (W K) Unit
  | 0, _ => fault .stackOverflow
  | d + 1, x => mEraseW (mEraseD hdr d) hdr x

/-- The part of `m_copy` that copies the right subtree: rbt.hpp:1502-1509, 1523-1530; `rec` is the recursive call, `er` the
call of `m_erase` in the destructor of the guard. -/
def copyRightW (rec : Ptr → Ptr → M (W K) Ptr) (er : Ptr → M (W K) Unit) (top x y : Ptr)
    (cont : Ptr → M (W K) Ptr) : M (W K) Ptr := do
  if (← rd x).right ≠ .null then
    let r ← rec (← rd x).right y
    setRight y r
    if (← hasErr) then
      er top
      pure .null
    else cont (← rd x).left
  else cont (← rd x).left

/-- The `while (x != 0)` loop of `m_copy`: rbt.hpp:1512-1533. -/
def mCopyLoopW (rec : Ptr → Ptr → M (W K) Ptr) (er : Ptr → M (W K) Unit) (hdr top p x : Ptr) : M (W K) Ptr := do
  if x ≠ .null then
    let y ← cloneNode hdr x
    if (← hasErr) then
      er top
      pure .null
    else do
    setLeft p y
    setParent y p
    if (← rd x).right ≠ .null then
      let r ← rec (← rd x).right y
      setRight y r
      if (← hasErr) then
        er top
        pure .null
      else mCopyLoopW rec er hdr top y (← rd x).left
    else mCopyLoopW rec er hdr top y (← rd x).left
  else pure top
partial_fixpoint

/-- `m_copy` with room for `d` activations of `m_copy` and `m_erase`: rbt.hpp:1458-1536. -/
def mCopyD (hdr : Ptr) : Nat → Ptr → Ptr → M (W K) Ptr
  | 0, _, _ => fault .stackOverflow
  | d + 1, x, p => do
    let top ← cloneNode hdr x
    if (← hasErr) then pure .null else do
    setParent top p
    copyRightW (mCopyD hdr d) (mEraseD hdr d) top x top (mCopyLoopW (mCopyD hdr d) (mEraseD hdr d) hdr top top)

/-- `clear`: rbt.hpp:1222-1230. -/
def clearD (d : Nat) (hdr : Ptr) : M (W K) Unit := do
  mEraseD hdr d (← rd hdr).parent
  setLeft hdr hdr
  setParent hdr .null
  setRight hdr hdr
  setCount hdr (fun _ => 0)

/-- Destructor: rbt.hpp:1026-1029, then the header goes out of scope. -/
def destroyTreeD (d : Nat) (hdr : Ptr) : M (W K) Unit := do
  mEraseD hdr d (← rd hdr).parent
  dropObj hdr

/-- `copy_nothrow`: rbt.hpp:1031-1077; set.hpp:186-192 (as `copyNothrow`). -/
def copyNothrowD (d : Nat) (prop : Bool) (hdr src : Ptr) : M (W K) Unit := do
  if hdr ≠ src then
    clearD d hdr
    allocOnCopy prop hdr src
    if (← hasErr) then pure () else do
    let _ ← tryCtor
    if (← hasErr) then pure () else do
    if (← rd src).parent ≠ .null then
      let link ← mCopyD hdr d (← rd src).parent hdr
      if (← hasErr) then pure () else do
      setParent hdr link
      setLeft hdr (← minLoop (← rd hdr).parent)
      setRight hdr (← maxLoop (← rd hdr).parent)
      let c := (← rd src).count
      setCount hdr (fun _ => c)
    else pure ()
  else pure ()

/-- `m_erase_aux(first, last)` and `erase(first, last)`: rbt.hpp:2151-2168, 1212-1217. -/
def eraseRangeD (d : Nat) (hdr first last : Ptr) : M (W K) Ptr := do
  if first = (← begin_ hdr) ∧ last = hdr then
    clearD d hdr
  else
    eraseRangeLoop hdr first last
  pure last

/-- `erase(const Key&)`: rbt.hpp:2170-2178; set.hpp:335-340. -/
def eraseKeyD (lt : K → K → Bool) (d : Nat) (hdr : Ptr) (k : K) : M (W K) Nat := do
  let (f, l) ← equalRange lt hdr k
  let old ← size hdr
  let _ ← eraseRangeD d hdr f l
  pure (old - (← size hdr))

/-- `erase(const Key* first, const Key* last)`: rbt.hpp:2180-2188. -/
def eraseKeysD (lt : K → K → Bool) (d : Nat) (hdr : Ptr) : List K → M (W K) Unit
  | [] => pure ()
  | k :: ks => do
    let _ ← eraseKeyD lt d hdr k
    eraseKeysD lt d hdr ks

/-- `m_move_assign`: rbt.hpp:1383-1402 (as `moveAssign`). -/
def moveAssignD (d : Nat) (prop : Bool) (hdr src : Ptr) : M (W K) Bool := do
  let a := (← rd hdr).owner
  let b := (← rd src).owner
  if prop = true ∨ a = b then
    clearD d hdr
    if (← rd src).parent ≠ .null then moveData hdr src else pure ()
    allocOnMove prop hdr src
    pure true
  else pure false

end Nestl.RB
