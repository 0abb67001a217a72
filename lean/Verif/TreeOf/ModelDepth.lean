import Verif.TreeOf.Client
import Verif.RBTree.ModelDepth
set_option autoImplicit false
/-
The functions of trees of objects on a machine with a bounded call stack (as Verif/RBTree/ModelDepth.lean for trees of values):
a call chain may contain at most `d` activations of `m_erase` and `m_copy` of the trees; one more is the fault `stackOverflow`.
What the constructors and destructors of the elements need is not counted.
-/
namespace Nestl.TO
open Nestl.VO (ElemOps)
open Nestl.NO
variable {S A : Type}

/-- The loop of `m_erase`: rbt.hpp:1540-1549; `again` is the recursive call. -/
def mEraseW (E : ElemOps S) (again : Ptr → M (ST S) Unit) (hdr x : Ptr) : M (ST S) Unit := do
  if x ≠ .null then
    again (← node x).right
    let y := (← node x).left
    destroyNode E hdr x
    mEraseW E again hdr y
  else pure ()
partial_fixpoint

/-- `m_erase` with room for `d` activations: rbt.hpp:1538-1550. -/
def mEraseD (E : ElemOps S) (hdr : Ptr) : Nat → Ptr → M (ST S) Unit
  | 0, _ => fun _ => some (.error .stackOverflow)
  | d + 1, x => mEraseW E (mEraseD E hdr d) hdr x

/-- The part of `m_copy` that copies the right subtree: rbt.hpp:1502-1509; `again` is the recursive call, `er` the call of
`m_erase` in the destructor of the guard. -/
def copyRightW (again : Ptr → Ptr → M (ST S) Ptr) (er : Ptr → M (ST S) Unit) (top x y : Ptr) (cont : Ptr → M (ST S) Ptr) :
    M (ST S) Ptr := do
  if (← node x).right ≠ .null then
    let r ← again (← node x).right y
    onO (RB.setRight y r)
    if (← failed) then
      er top
      pure .null
    else cont (← node x).left
  else cont (← node x).left

/-- The `while (x != 0)` loop of `m_copy`: rbt.hpp:1512-1533. -/
def mCopyLoopW (E : ElemOps S) (again : Ptr → Ptr → M (ST S) Ptr) (er : Ptr → M (ST S) Unit) (hdr top p x : Ptr) : M (ST S) Ptr := do
  if x ≠ .null then
    let y ← cloneNode E hdr x
    if (← failed) then
      er top
      pure .null
    else do
    onO (RB.setLeft p y)
    onO (RB.setParent y p)
    if (← node x).right ≠ .null then
      let r ← again (← node x).right y
      onO (RB.setRight y r)
      if (← failed) then
        er top
        pure .null
      else mCopyLoopW E again er hdr top y (← node x).left
    else mCopyLoopW E again er hdr top y (← node x).left
  else pure top
partial_fixpoint

/-- `m_copy` with room for `d` activations of `m_copy` and `m_erase`: rbt.hpp:1458-1536. -/
def mCopyD (E : ElemOps S) (hdr : Ptr) : Nat → Ptr → Ptr → M (ST S) Ptr
  | 0, _, _ => fun _ => some (.error .stackOverflow)
  | d + 1, x, p => do
    let top ← cloneNode E hdr x
    if (← failed) then pure .null else do
    onO (RB.setParent top p)
    copyRightW (mCopyD E hdr d) (mEraseD E hdr d) top x top (mCopyLoopW E (mCopyD E hdr d) (mEraseD E hdr d) hdr top top)

/-- `clear`: rbt.hpp:1222-1230. -/
def clearD (E : ElemOps S) (d : Nat) (hdr : Ptr) : M (ST S) Unit := do
  mEraseD E hdr d (← node hdr).parent
  onO (resetLinks hdr)

/-- Destructor: rbt.hpp:1026-1029, then the header goes out of scope. -/
def destroyTreeD (E : ElemOps S) (d : Nat) (hdr : Ptr) : M (ST S) Unit := do
  mEraseD E hdr d (← node hdr).parent
  onO (dropObj hdr)

/-- `m_erase_aux(first, last)` and `erase(first, last)`: rbt.hpp:2151-2168, 1212-1217. -/
def eraseRangeD (E : ElemOps S) (d : Nat) (hdr first last : Ptr) : M (ST S) Ptr := do
  if first = (← onO (RB.begin_ hdr)) ∧ last = hdr then
    clearD E d hdr
  else
    eraseRangeLoop E hdr first last
  pure last

/-- `erase(const Key&)`: rbt.hpp:2170-2178; set.hpp:335-340. -/
def eraseKeyD (less : Ptr → Ptr → M S Bool) (E : ElemOps S) (d : Nat) (hdr k : Ptr) : M (ST S) Nat := do
  let (f, l) ← equalRange less hdr k
  let old ← onO (RB.size hdr)
  let _ ← eraseRangeD E d hdr f l
  pure (old - (← onO (RB.size hdr)))

/-- `erase(const Key* first, const Key* last)`: rbt.hpp:2180-2188 (as `eraseKeys`). -/
def eraseKeysD (less : Ptr → Ptr → M S Bool) (E : ElemOps S) (d : Nat) (hdr : Ptr) : List Ptr → M (ST S) Unit
  | [] => pure ()
  | k :: ks => do
    let _ ← eraseKeyD less E d hdr k
    eraseKeysD less E d hdr ks

/-- `copy_nothrow`: rbt.hpp:1031-1077; set.hpp:186-192 (as `copyNothrow`). -/
def copyNothrowD (E : ElemOps S) (d : Nat) (prop : Bool) (hdr src : Ptr) : M (ST S) Unit := do
  if hdr ≠ src then
    clearD E d hdr
    onO (RB.allocOnCopy prop hdr src)
    if (← failed) then pure () else do
    let _ ← onO tryCtor
    if (← failed) then pure () else do
    if (← node src).parent ≠ .null then
      let link ← mCopyD E hdr d (← node src).parent hdr
      if (← failed) then pure () else onO (adopt hdr src link)
    else pure ()
  else pure ()

/-- `m_move_assign`: rbt.hpp:1383-1402 (as `moveAssign`). -/
def moveAssignD (E : ElemOps S) (d : Nat) (prop : Bool) (hdr src : Ptr) : M (ST S) Bool := do
  let a := (← node hdr).owner
  let b := (← node src).owner
  if prop = true ∨ a = b then
    clearD E d hdr
    if (← node src).parent ≠ .null then onO (RB.moveData hdr src) else pure ()
    onO (RB.allocOnMove prop hdr src)
    pure true
  else pure false

/-- The program executed by a call (as `exec`) with room for `d` activations. -/
def execD (E : ElemOps S) (d : Nat) : Call S A → M (ST S) Res
  | .eraseKey ord s t => do pure (.num (← eraseKeyD ord.less E d s t))
  | .eraseKeys ord s ts => do eraseKeysD ord.less E d s ts; pure .unit
  | .eraseRange s f l => do pure (.pos (← eraseRangeD E d s f l))
  | .clear s => do clearD E d s; pure .unit
  | .copy prop t s => do copyNothrowD E d prop t s; pure .unit
  | .assign prop t s => do pure (.ok (← moveAssignD E d prop t s))
  | .destroy s => do destroyTreeD E d s; pure .unit
  | c => exec E c

end Nestl.TO
