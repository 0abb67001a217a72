import Verif.Base
set_option autoImplicit false
/-
Model of `nestl::vector` (nestl/implementation/vector.hpp, below `vector.hpp`) with `uninitialised_copy`
(nestl/detail/uninitialised_copy.hpp), `destroy` and the scope guards (nestl/detail/destroy.hpp),
`class_operations::construct` (nestl/class_operations.hpp) and `allocator` (nestl/allocator.hpp).

* A block of storage is a list of slots; a slot is raw (`none`) or holds an element.
* A pointer into a block is the block's address and an offset; iterators given to a vector are offsets from its
  `m_start` (`pos - m_start`, vector.hpp:705).
* `size_t` arithmetic is modulo 2^64.
* An element is moved and copied alike (the value of a moved-from element is not distinguished).
-/
namespace Nestl.Vec

/-- `sizeof(T)`, a positive number below 2^60. -/
class ElemSize (V : Type) where
  size : Nat
  pos : 0 < size
  small : size < 2 ^ 60

/-- `m_allocator`, `m_start`, `m_finish - m_start`, `m_end_of_storage - m_start`: vector.hpp:171-175.  Allocators are
represented by numbers; equal numbers are equal allocators. -/
structure Obj where
  alloc : Nat
  start : Ptr
  fin : Nat
  cap : Nat

/-- A block obtained from `allocate(n)`: the slots that fit into it, the allocator it came from and `n`. -/
structure Blk (V : Type) where
  slots : List (Option V)
  owner : Nat
  count : Nat

/-- What is in memory: vector objects and blocks. -/
inductive VCell (V : Type)
  | obj (o : Obj)
  | blk (b : Blk V)

abbrev W (V : Type) := World (VCell V)

/-- A constructor argument: a value of its own, or a reference to slot `i` of the block at `p`. -/
inductive Arg (V : Type)
  | lit (v : V)
  | ref (p : Ptr) (i : Nat)

variable {V : Type}

/-- The allocator of a default constructed vector (`const allocator_type& alloc = allocator_type()`, vector.hpp:47). -/
def defaultAlloc : Nat := 0

/-- `size_t` addition and multiplication wrap. -/
def wrap (n : Nat) : Nat := n % 2 ^ 64

/-- No allocator can provide a larger block (`PTRDIFF_MAX` is 2^63 - 1). -/
def maxBytes : Nat := 2 ^ 62

/-- Read the members of a vector object: vector.hpp:171-175. -/
def rdObj (s : Ptr) : M (W V) Obj := do
  match (← rd s) with
  | .obj o => pure o
  | .blk _ => fault .wild

/-- Assign the members of a vector object: vector.hpp:171-175. -/
def setObj (s : Ptr) (o : Obj) : M (W V) Unit := modCell s fun _ => .obj o

/-- Access to the block `m_start` points to: vector.hpp:173. -/
def rdBlk (p : Ptr) : M (W V) (Blk V) := do
  match (← rd p) with
  | .blk b => pure b
  | .obj _ => fault .wild

/-- Read the element in slot `i`. -/
def slotRd (p : Ptr) (i : Nat) : M (W V) V := do
  match (← rdBlk p).slots[i]? with
  | none => fault .outOfBounds
  | some none => fault .rawRead
  | some (some v) => pure v

/-- Begin the lifetime of an element in slot `i`. -/
def slotPut (p : Ptr) (i : Nat) (v : V) : M (W V) Unit := do
  let b ← rdBlk p
  match b.slots[i]? with
  | none => fault .outOfBounds
  | some (some _) => fault .overwriteLive
  | some none => modCell p fun _ => .blk { b with slots := b.slots.set i (some v) }

/-- `nestl::detail::destroy(Type* val)`: destroy.hpp:17-21. -/
def destroySlot (p : Ptr) (i : Nat) : M (W V) Unit := do
  let b ← rdBlk p
  match b.slots[i]? with
  | none => fault .outOfBounds
  | some none => fault .rawRead
  | some (some _) => modCell p fun _ => .blk { b with slots := b.slots.set i none }

/-- `nestl::detail::destroy(first, last)`: destroy.hpp:23-31; `n` is `last - first`. -/
def destroyRange (p : Ptr) (first : Nat) : Nat → M (W V) Unit
  | 0 => pure ()
  | n + 1 => do
    destroySlot p first
    destroyRange p (first + 1) n

/-- The value a constructor gets through its argument. -/
def argVal : Arg V → M (W V) V
  | .lit v => pure v
  | .ref p i => slotRd p i

/-- `class_operations::construct(err, ptr, args...)`: class_operations.hpp:32-37, no_exceptions/ and
has_exceptions/detail/class_operations.hpp:17-41 (an exception of the constructor is caught and stored in `err`). -/
def construct (p : Ptr) (i : Nat) (a : Arg V) : M (W V) Unit := do
  let v ← argVal a
  if (← tryCtor) then slotPut p i v else pure ()

/-- The loop of `uninitialised_copy`: uninitialised_copy.hpp:24-31; the source range is given by what its iterators
refer to.  Returns `cur` and whether the loop has ended normally. -/
def ucLoop (p : Ptr) (cur : Nat) : List (Arg V) → M (W V) (Nat × Bool)
  | [] => pure (cur, true)
  | a :: as => do
    construct p cur a
    if (← hasErr) then pure (cur, false) else ucLoop p (cur + 1) as

/-- `uninitialised_copy(err, first, last, output)`: uninitialised_copy.hpp:15-35 with `destruction_scoped_guard`
(destroy.hpp:33-58). -/
def uninitCopy (src : List (Arg V)) (p : Ptr) (out : Nat) : M (W V) Nat := do
  let r ← ucLoop p out src
  if r.2 then pure r.1                          -- guard.release()
  else do
    destroyRange p out (r.1 - out)              -- ~guard
    pure r.1

/-- References to `n` consecutive slots. -/
def refs (p : Ptr) (first n : Nat) : List (Arg V) := (List.range' first n).map (.ref p)

/-- `allocator::deallocate(p, n)`: allocator.hpp:63-66.  `n` must be the number given to `allocate`. -/
def deallocate (a : Nat) (p : Ptr) (n : Nat) : M (W V) Unit :=
  freeCell p fun c =>
    match c with
    | .obj _ => .error .badFree
    | .blk b =>
      if b.owner ≠ a then .error .wrongAllocator
      else if b.count ≠ n then .error .badFree
      else if b.slots.any Option.isSome then .error .freeLive
      else .ok ()

section sized
variable [ElemSize V]

/-- `allocator::allocate(err, n)`: allocator.hpp:51-61.  It asks for `n * sizeof(T)` bytes, computed modulo 2^64, so the
block has room for fewer than `n` elements if that wraps. -/
def allocate (a n : Nat) : M (W V) Ptr := fun w =>
  let bytes := wrap (n * ElemSize.size V)
  if maxBytes < bytes then some (.ok (.null, { w with nAlloc := w.nAlloc + 1, err := some .badAlloc }))
  else allocCell (fun _ => .blk ⟨List.replicate (bytes / ElemSize.size V) none, a, n⟩) w

/-- `do_reserve`: vector.hpp:813-840 with `deallocation_scoped_guard` (destroy.hpp:61-89). -/
def doReserve (s : Ptr) (n : Nat) : M (W V) Unit := do
  let o ← rdObj s
  let p ← allocate o.alloc n
  if (← hasErr) then pure () else do
  let _ ← uninitCopy (refs o.start 0 o.fin) p 0
  if (← hasErr) then deallocate o.alloc p n     -- ~guard
  else do
    destroyRange o.start 0 o.fin
    deallocate o.alloc o.start o.cap
    setObj s { o with start := p, cap := n }    -- guard.release()

/-- `reserve_nothrow`: vector.hpp:513-532 (the test against `max_size()`, 2^64 - 1, never succeeds). -/
def reserve (s : Ptr) (n : Nat) : M (W V) Unit := do
  if n ≤ (← rdObj s).cap then pure () else doReserve s n

/-- `shrink_to_fit_nothrow`: vector.hpp:541-550. -/
def shrinkToFit (s : Ptr) : M (W V) Unit := do
  let o ← rdObj s
  if o.cap > o.fin then doReserve s o.fin else pure ()

/-- `grow`: vector.hpp:796-811. -/
def grow (s : Ptr) (required : Nat) : M (W V) Unit := do
  let o ← rdObj s
  let newCap := wrap (wrap (o.cap + 1) * 3) / 2
  let newCap := if newCap < required then required else newCap
  assertM (newCap > o.cap)
  reserve s newCap

/-- The shifting loop of `insert_value`: vector.hpp:719-729; `k` is `val - first`.  Returns whether it has ended
normally. -/
def shift (p : Ptr) (first : Nat) : Nat → M (W V) Bool
  | 0 => pure true
  | k + 1 => do
    construct p (first + k + 1) (.ref p (first + k))
    if (← hasErr) then pure false else do
    destroySlot p (first + k)
    shift p first k

/-- The reallocation step of `insert_value`: vector.hpp:707-714.  Returns whether `insert_value` returns here. -/
def growIfFull (s : Ptr) : M (W V) Bool := do
  let o ← rdObj s
  if o.cap = o.fin then do
    grow s (wrap (o.cap + 1))
    hasErr
  else pure false

/-- `insert_value(err, pos, args...)`: vector.hpp:696-739; also `insert_nothrow(err, pos, value)` (560-574).  The result is
the offset of the returned iterator from `m_start`. -/
def insertValue (s : Ptr) (pos : Nat) (a : Arg V) : M (W V) Nat := do
  let o ← rdObj s
  assertM (pos ≤ o.fin)
  let stop ← growIfFull s
  if stop then pure o.fin else do
  let o ← rdObj s
  assertM (o.cap > o.fin)
  if !(← shift o.start pos (o.fin - pos)) then pure o.fin else do
  construct o.start pos a
  if (← hasErr) then pure o.fin else do
  setObj s { o with fin := o.fin + 1 }
  pure pos

/-- The loop of `insert_range`: vector.hpp:751-760; the range is given by what its iterators refer to and `offset` is relative
to the current `m_start`. -/
def insertRangeLoop (s : Ptr) (offset : Nat) : List (Arg V) → M (W V) Unit
  | [] => pure ()
  | a :: as => do
    let _ ← insertValue s offset a
    if (← hasErr) then pure () else insertRangeLoop s (offset + 1) as

/-- `insert_nothrow(err, pos, first, last)`: vector.hpp:576-585, `insert_range`: 741-763.  By intent: `NESTL_ASSERT` is not
defined in the code; it is taken to be `assert`.  The iterator returned by `insert_range` is discarded by its only caller
(the code copies an uninitialised one if the range is empty). -/
def insertRange (s : Ptr) (pos : Nat) (src : List (Arg V)) : M (W V) Unit := do
  assertM (pos ≤ (← rdObj s).fin)
  insertRangeLoop s pos src

/-- `push_back_nothrow`, `emplace_back_nothrow`: vector.hpp:588-611. -/
def pushBack (s : Ptr) (a : Arg V) : M (W V) Unit := do
  let _ ← insertValue s (← rdObj s).fin a
  pure ()

/-- The construction loop of `do_resize`: vector.hpp:783-791; `n` is the number of elements still to be appended. -/
def resizeLoop (s : Ptr) (a : Arg V) : Nat → M (W V) Unit
  | 0 => pure ()
  | n + 1 => do
    let o ← rdObj s
    construct o.start o.fin a
    if (← hasErr) then pure () else do
    setObj s { o with fin := o.fin + 1 }
    resizeLoop s a n

/-- `do_resize(err, count, args...)`: vector.hpp:766-794; `resize_nothrow`: 613-627. -/
def resize (s : Ptr) (count : Nat) (a : Arg V) : M (W V) Unit := do
  let o ← rdObj s
  if count ≤ o.fin then do
    destroyRange o.start count (o.fin - count)
    setObj s { o with fin := count }
  else do
    grow s count
    if (← hasErr) then pure () else resizeLoop s a (count - o.fin)

end sized

/-- `clear()`: vector.hpp:552-557.  By intent: the code calls a `destroy(allocator, first, last)` that does not exist; it is
taken to be `destroy(first, last)`. -/
def clear (s : Ptr) : M (W V) Unit := do
  let o ← rdObj s
  destroyRange o.start 0 o.fin
  setObj s { o with fin := 0 }

/-- `vector(alloc)`: vector.hpp:259-266. -/
def newVec (a : Nat) : M (W V) Ptr := newObj fun _ => .obj ⟨a, .null, 0, 0⟩

/-- `~vector()`: vector.hpp:279-284; then the object goes out of scope. -/
def destroyVec (s : Ptr) : M (W V) Unit := do
  let o ← rdObj s
  destroyRange o.start 0 o.fin
  deallocate o.alloc o.start o.cap
  dropObj s

/-- `swap_data`: vector.hpp:638-644. -/
def swapData (s t : Ptr) : M (W V) Unit := do
  let o ← rdObj s
  let u ← rdObj t
  setObj s { o with start := u.start, fin := u.fin, cap := u.cap }
  let u ← rdObj t
  setObj t { u with start := o.start, fin := o.fin, cap := o.cap }

/-- `swap`: vector.hpp:629-634. -/
def swap (s t : Ptr) : M (W V) Unit := do
  let o ← rdObj s
  let u ← rdObj t
  setObj s { o with alloc := u.alloc }
  let u ← rdObj t
  setObj t { u with alloc := o.alloc }
  swapData s t

/-- `vector(vector&&)`: vector.hpp:269-277. -/
def moveCtor (t : Ptr) : M (W V) Ptr := do
  let s ← newVec (← rdObj t).alloc
  swapData s t
  pure s

/-- `operator=(vector&&)`: vector.hpp:293-299, `move_assign`: 646-652.  The destructor of `destroyContentAtExit` runs last. -/
def moveAssign (s t : Ptr) : M (W V) Unit := do
  let d ← moveCtor s
  swapData s t
  destroyVec d

section sized
variable [ElemSize V]

/-- The loop of `assign_nothrow(err, n, val)`: vector.hpp:323-332. -/
def assignLoop (s : Ptr) (a : Arg V) : Nat → M (W V) Unit
  | 0 => pure ()
  | n + 1 => do
    pushBack s a
    if (← hasErr) then pure () else assignLoop s a n

/-- `assign_nothrow(err, n, val)`: vector.hpp:309-333. -/
def assignN (s : Ptr) (n : Nat) (a : Arg V) : M (W V) Unit := do
  let tmp ← newVec defaultAlloc
  swap tmp s
  assertM ((← rdObj s).fin = 0)
  grow s n
  if (← hasErr) then pure () else assignLoop s a n
  destroyVec tmp

/-- `assign_iterator(err, input_iterator_tag, first, last)`: vector.hpp:674-694; the range is given by what its iterators
refer to. -/
def assignIter : Ptr → List (Arg V) → M (W V) Unit
  | _, [] => pure ()
  | s, a :: as => do
    pushBack s a
    if (← hasErr) then pure () else assignIter s as

/-- `assign_nothrow(err, first, last)`: vector.hpp:335-343, 674-694, input iterators. -/
def assignInput (s : Ptr) (src : List (Arg V)) : M (W V) Unit := do
  let tmp ← newVec defaultAlloc
  swap tmp s
  assertM ((← rdObj s).fin = 0)
  assignIter s src
  destroyVec tmp

/-- `assign_nothrow(err, first, last)`: vector.hpp:335-343, 654-694, random access iterators. -/
def assignRandom (s : Ptr) (src : List (Arg V)) : M (W V) Unit := do
  let tmp ← newVec defaultAlloc
  swap tmp s
  assertM ((← rdObj s).fin = 0)
  grow s src.length
  if (← hasErr) then pure ()
  else do
    assertM ((← rdObj s).fin = 0)
    assignIter s src
  destroyVec tmp

/-- `copy_nothrow(err, other)`: vector.hpp:301-307. -/
def copyNothrow (s t : Ptr) : M (W V) Unit := do
  let u ← rdObj t
  assignRandom s (refs u.start 0 u.fin)

end sized

/-- `size()`: vector.hpp:499-504. -/
def size (s : Ptr) : M (W V) Nat := do pure (← rdObj s).fin

/-- `capacity()`: vector.hpp:534-539. -/
def capacity (s : Ptr) : M (W V) Nat := do pure (← rdObj s).cap

/-- `empty()`: vector.hpp:493-497. -/
def empty (s : Ptr) : M (W V) Bool := do pure (decide ((← rdObj s).fin = 0))

/-- `get_allocator()`: vector.hpp:286-291. -/
def getAlloc (s : Ptr) : M (W V) Nat := do pure (← rdObj s).alloc

/-- `begin()`: vector.hpp:409-428 (an iterator is a pointer). -/
def begin_ (s : Ptr) : M (W V) Ptr := do pure (← rdObj s).start

/-- `data()`: vector.hpp:393-407. -/
def data (s : Ptr) : M (W V) Ptr := do
  assertM (!(← empty s))
  pure (← rdObj s).start

/-- `operator[]`: vector.hpp:345-359. -/
def at_ (s : Ptr) (i : Nat) : M (W V) V := do
  let o ← rdObj s
  assertM (i < o.fin)
  slotRd o.start i

/-- `front()`: vector.hpp:361-375. -/
def front (s : Ptr) : M (W V) V := do
  assertM (!(← empty s))
  slotRd (← rdObj s).start 0

/-- `back()`: vector.hpp:377-391 (`*rbegin()` is `*(end() - 1)`). -/
def back (s : Ptr) : M (W V) V := do
  assertM (!(← empty s))
  let o ← rdObj s
  slotRd o.start (o.fin - 1)

/-- The loop of `operator==`: vector.hpp:241-250. -/
def eqLoop (eq : V → V → Bool) (p q : Ptr) (i : Nat) : Nat → M (W V) Bool
  | 0 => pure true
  | n + 1 => do
    let a ← slotRd p i
    let b ← slotRd q i
    if !(eq a b) then pure false else eqLoop eq p q (i + 1) n

/-- `operator==`: vector.hpp:226-253; `eq` is the element comparison. -/
def equal (eq : V → V → Bool) (l r : Ptr) : M (W V) Bool := do
  let o ← rdObj l
  let u ← rdObj r
  if o.fin ≠ u.fin then pure false else eqLoop eq o.start u.start 0 o.fin

end Nestl.Vec
