import Verif.Vector.Client
set_option autoImplicit false
/-
Model of `nestl::vector<T>` where `T` is a class of its own: a type whose objects own memory, are constructed by copying
(which may fail) or moving, and have a destructor - such as `nestl::list`, `nestl::set` or `nestl::vector` itself
(nestl/implementation/vector.hpp, nestl/class_operations.hpp, nestl/detail/uninitialised_copy.hpp, nestl/detail/destroy.hpp).

Simplifications: the blocks of the vectors and the elements with what they own are kept in two memories (they have different
types); an element, in C++ embedded in the block, is a separate object of the element memory, and its slot holds its address.
-/
namespace Nestl.VO
open Nestl.Vec (W VCell Obj Blk rdObj setObj rdBlk slotRd slotPut deallocate allocate newVec swapData)

/-- The operations of an element class that the code of the vector uses; `S` is the memory of its objects. -/
structure ElemOps (S : Type) where
  /-- `T()` -/
  make : M S Ptr
  /-- Construction of a copy of an object: class_operations.hpp:32-65; the new object, or the error if there is none. -/
  copy : Ptr → M S (Except Err Ptr)
  /-- `T(T&&)` -/
  move : Ptr → M S Ptr
  /-- `~T()` -/
  drop : Ptr → M S Unit

/-- Program state: the memory of the vectors (a slot holds the address of its element) and the memory of the elements. -/
structure NS (S : Type) where
  o : W Ptr
  i : S

variable {S α : Type}

/-- A step of the vector. -/
def onO (m : M (W Ptr) α) : M (NS S) α := fun s =>
  match m s.o with
  | some (.ok (a, o')) => some (.ok (a, { s with o := o' }))
  | some (.error f) => some (.error f)
  | none => none

/-- A step of the elements. -/
def onI (m : M S α) : M (NS S) α := fun s =>
  match m s.i with
  | some (.ok (a, i')) => some (.ok (a, { s with i := i' }))
  | some (.error f) => some (.error f)
  | none => none

/-- `if (err)` -/
def failed : M (NS S) Bool := onO hasErr

/-- Report an error. -/
def report (e : Err) : M (NS S) Unit := fun s => some (.ok ((), { s with o := { s.o with err := some e } }))

/-- Constructor arguments: an object of the client, by reference or by rvalue reference; a reference to slot `i` of the block at
`p`; or none at all. -/
inductive Arg
  | obj (t : Ptr)
  | mov (t : Ptr)
  | ref (p : Ptr) (i : Nat)
  | none

variable (E : ElemOps S)

/-- The lifetime of the new element, if there is one, begins in slot `i`. -/
def settle (p : Ptr) (i : Nat) : Except Err Ptr → M (NS S) Unit
  | .ok q => onO (slotPut p i q)
  | .error e => report e

/-- `class_operations::construct(err, ptr, args...)`: class_operations.hpp:32-65. -/
def construct (p : Ptr) (i : Nat) : Arg → M (NS S) Unit
  | .obj t => do settle p i (← onI (E.copy t))
  | .mov t => do settle p i (.ok (← onI (E.move t)))
  | .ref b j => do
    let t ← onO (slotRd b j)
    settle p i (← onI (E.copy t))
  | .none => do settle p i (.ok (← onI E.make))

/-- `nestl::detail::destroy(Type* val)`: destroy.hpp:17-21. -/
def destroySlot (p : Ptr) (i : Nat) : M (NS S) Unit := do
  let q ← onO (slotRd p i)
  onI (E.drop q)
  onO (Vec.destroySlot p i)

/-- `nestl::detail::destroy(first, last)`: destroy.hpp:23-31; `n` is `last - first`. -/
def destroyRange (p : Ptr) (first : Nat) : Nat → M (NS S) Unit
  | 0 => pure ()
  | n + 1 => do
    destroySlot E p first
    destroyRange p (first + 1) n

/-- The loop of `uninitialised_copy`: uninitialised_copy.hpp:24-31 (see `Vec.ucLoop`). -/
def ucLoop (p : Ptr) (cur : Nat) : List Arg → M (NS S) (Nat × Bool)
  | [] => pure (cur, true)
  | a :: as => do
    construct E p cur a
    if (← failed) then pure (cur, false) else ucLoop p (cur + 1) as

/-- `uninitialised_copy(err, first, last, output)`: uninitialised_copy.hpp:15-35 with `destruction_scoped_guard`
(destroy.hpp:33-58). -/
def uninitCopy (src : List Arg) (p : Ptr) (out : Nat) : M (NS S) Nat := do
  let r ← ucLoop E p out src
  if r.2 then pure r.1                          -- guard.release()
  else do
    destroyRange E p out (r.1 - out)            -- ~guard
    pure r.1

/-- References to `n` consecutive slots. -/
def refs (p : Ptr) (first n : Nat) : List Arg := (List.range' first n).map (.ref p)

section sized
variable [Vec.ElemSize Ptr]

/-- `do_reserve`: vector.hpp:813-840 with `deallocation_scoped_guard` (destroy.hpp:61-89). -/
def doReserve (s : Ptr) (n : Nat) : M (NS S) Unit := do
  let o ← onO (rdObj s)
  let p ← onO (allocate o.alloc n)
  if (← failed) then pure () else do
  let _ ← uninitCopy E (refs o.start 0 o.fin) p 0
  if (← failed) then onO (deallocate o.alloc p n)     -- ~guard
  else do
    destroyRange E o.start 0 o.fin
    onO (deallocate o.alloc o.start o.cap)
    onO (setObj s { o with start := p, cap := n })    -- guard.release()

/-- `reserve_nothrow`: vector.hpp:513-532. -/
def reserve (s : Ptr) (n : Nat) : M (NS S) Unit := do
  let o ← onO (rdObj s)
  if n ≤ o.cap then pure () else doReserve E s n

/-- `shrink_to_fit_nothrow`: vector.hpp:541-550. -/
def shrinkToFit (s : Ptr) : M (NS S) Unit := do
  let o ← onO (rdObj s)
  if o.cap > o.fin then doReserve E s o.fin else pure ()

/-- `grow`: vector.hpp:796-811. -/
def grow (s : Ptr) (required : Nat) : M (NS S) Unit := do
  let o ← onO (rdObj s)
  let newCap := Vec.wrap (Vec.wrap (o.cap + 1) * 3) / 2
  let newCap := if newCap < required then required else newCap
  assertM (newCap > o.cap)
  reserve E s newCap

/-- The shifting loop of `insert_value`: vector.hpp:719-729 (see `Vec.shift`). -/
def shift (p : Ptr) (first : Nat) : Nat → M (NS S) Bool
  | 0 => pure true
  | k + 1 => do
    construct E p (first + k + 1) (.ref p (first + k))
    if (← failed) then pure false else do
    destroySlot E p (first + k)
    shift p first k

/-- The reallocation step of `insert_value`: vector.hpp:707-714. -/
def growIfFull (s : Ptr) : M (NS S) Bool := do
  let o ← onO (rdObj s)
  if o.cap = o.fin then do
    grow E s (Vec.wrap (o.cap + 1))
    failed
  else pure false

/-- `insert_value(err, pos, args...)`: vector.hpp:696-739. -/
def insertValue (s : Ptr) (pos : Nat) (a : Arg) : M (NS S) Nat := do
  let o ← onO (rdObj s)
  assertM (pos ≤ o.fin)
  let stop ← growIfFull E s
  if stop then pure o.fin else do
  let o ← onO (rdObj s)
  assertM (o.cap > o.fin)
  if !(← shift E o.start pos (o.fin - pos)) then pure o.fin else do
  construct E o.start pos a
  if (← failed) then pure o.fin else do
  onO (setObj s { o with fin := o.fin + 1 })
  pure pos

/-- The loop of `insert_range`: vector.hpp:751-760 (see `Vec.insertRangeLoop`). -/
def insertRangeLoop (s : Ptr) (offset : Nat) : List Arg → M (NS S) Unit
  | [] => pure ()
  | a :: as => do
    let _ ← insertValue E s offset a
    if (← failed) then pure () else insertRangeLoop s (offset + 1) as

/-- `insert_nothrow(err, pos, first, last)`: vector.hpp:576-585, `insert_range`: 741-763 (see `Vec.insertRange`). -/
def insertRange (s : Ptr) (pos : Nat) (src : List Arg) : M (NS S) Unit := do
  let o ← onO (rdObj s)
  assertM (pos ≤ o.fin)
  insertRangeLoop E s pos src

/-- `push_back_nothrow`, `emplace_back_nothrow`: vector.hpp:588-611. -/
def pushBack (s : Ptr) (a : Arg) : M (NS S) Unit := do
  let o ← onO (rdObj s)
  let _ ← insertValue E s o.fin a
  pure ()

/-- The construction loop of `do_resize`: vector.hpp:783-791. -/
def resizeLoop (s : Ptr) (a : Arg) : Nat → M (NS S) Unit
  | 0 => pure ()
  | n + 1 => do
    let o ← onO (rdObj s)
    construct E o.start o.fin a
    if (← failed) then pure () else do
    onO (setObj s { o with fin := o.fin + 1 })
    resizeLoop s a n

/-- `do_resize(err, count, args...)`: vector.hpp:766-794; `resize_nothrow`: 613-627. -/
def resize (s : Ptr) (count : Nat) (a : Arg) : M (NS S) Unit := do
  let o ← onO (rdObj s)
  if count ≤ o.fin then do
    destroyRange E o.start count (o.fin - count)
    onO (setObj s { o with fin := count })
  else do
    grow E s count
    if (← failed) then pure () else resizeLoop E s a (count - o.fin)

end sized

/-- `clear()`: vector.hpp:552-557 (see `Vec.clear`). -/
def clear (s : Ptr) : M (NS S) Unit := do
  let o ← onO (rdObj s)
  destroyRange E o.start 0 o.fin
  onO (setObj s { o with fin := 0 })

/-- `~vector()`: vector.hpp:279-284; then the object goes out of scope. -/
def destroyVec (s : Ptr) : M (NS S) Unit := do
  let o ← onO (rdObj s)
  destroyRange E o.start 0 o.fin
  onO (deallocate o.alloc o.start o.cap)
  onO (dropObj s)

/-- `operator=(vector&&)`: vector.hpp:293-299, `move_assign`: 646-652. -/
def moveAssign (s t : Ptr) : M (NS S) Unit := do
  let d ← onO (Vec.moveCtor s)
  onO (swapData s t)
  destroyVec E d

section sized
variable [Vec.ElemSize Ptr]

/-- The loop of `assign_nothrow(err, n, val)`: vector.hpp:323-332. -/
def assignLoop (s : Ptr) (a : Arg) : Nat → M (NS S) Unit
  | 0 => pure ()
  | n + 1 => do
    pushBack E s a
    if (← failed) then pure () else assignLoop s a n

/-- `assign_nothrow(err, n, val)`: vector.hpp:309-333. -/
def assignN (s : Ptr) (n : Nat) (a : Arg) : M (NS S) Unit := do
  let tmp ← onO (newVec Vec.defaultAlloc)
  onO (Vec.swap tmp s)
  let o ← onO (rdObj s)
  assertM (o.fin = 0)
  grow E s n
  if (← failed) then pure () else assignLoop E s a n
  destroyVec E tmp

/-- `assign_iterator(err, input_iterator_tag, first, last)`: vector.hpp:674-694. -/
def assignIter (s : Ptr) : List Arg → M (NS S) Unit
  | [] => pure ()
  | a :: as => do
    pushBack E s a
    if (← failed) then pure () else assignIter s as

/-- `assign_nothrow(err, first, last)`: vector.hpp:335-343, 654-694, random access iterators. -/
def assignRandom (s : Ptr) (src : List Arg) : M (NS S) Unit := do
  let tmp ← onO (newVec Vec.defaultAlloc)
  onO (Vec.swap tmp s)
  let o ← onO (rdObj s)
  assertM (o.fin = 0)
  grow E s src.length
  if (← failed) then pure ()
  else do
    let o ← onO (rdObj s)
    assertM (o.fin = 0)
    assignIter E s src
  destroyVec E tmp

/-- `copy_nothrow(err, other)`: vector.hpp:301-307. -/
def copyNothrow (s t : Ptr) : M (NS S) Unit := do
  let u ← onO (rdObj t)
  assignRandom E s (refs u.start 0 u.fin)

end sized

end Nestl.VO
