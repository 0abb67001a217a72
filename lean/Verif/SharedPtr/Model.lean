import Verif.Base
set_option autoImplicit false
/-
Model of `nestl::impl::shared_ptr`, `nestl::impl::weak_ptr` and `make_shared_a_nothrow`
(nestl/implementation/shared_ptr.hpp, below `shared_ptr.hpp`).

* A control block `type_stored_by_value<T, A>` (shared_ptr.hpp:87-129) is one memory cell: the two counts, the
  managed object if it is alive (the `aligned_buffer<T>`), and the allocator the block came from.
* A managed object has a value and any number of data members that are themselves `shared_ptr`s or `weak_ptr`s, in
  order of declaration; its destructor is the implicit one.  Different objects may have different members (they may
  have different types).
* Counts are natural numbers (`long` in the code; it cannot overflow with fewer than 2^63 handles).
* The object lives inside its control block, so `m_ptr` is represented by the address of the block.  Adjustments of
  `m_ptr` by conversions from `Y*` to `T*` are not modelled.
* A handle (`shared_ptr` or `weak_ptr`) that is being destroyed stops to exist before its target is released.  No
  code reads it in between.
-/
namespace Nestl.SP

/-- `shared_ptr` or `weak_ptr`. -/
inductive Kind
  | sh
  | wk
deriving DecidableEq

/-- `m_ptr` and `m_refcount`: shared_ptr.hpp:188-189 and 339-340. -/
structure Hnd where
  ptr : Ptr
  ref : Ptr
deriving DecidableEq

/-- An empty handle: shared_ptr.hpp:220-224, 349-360. -/
def Hnd.nil : Hnd := ⟨.null, .null⟩

/-- A managed object. -/
structure Obj (V : Type) where
  val : V
  mem : List (Kind × Hnd)

/-- A control block: `m_use_count`, `m_weak_use_count` (shared_ptr.hpp:78-79), `m_value`, `m_allocator`
(shared_ptr.hpp:127-128); `owner` is the allocator which provided the memory. -/
structure Blk (V : Type) where
  use : Nat
  weak : Nat
  obj : Option (Obj V)
  owner : Nat

/-- What is in memory: handle variables, control blocks, storage without a control block, and marks left by control
blocks whose storage was released although their destructor was not called. -/
inductive Cell (V : Type)
  | var (k : Kind) (h : Hnd)
  | blk (b : Blk V)
  | raw (owner : Nat)
  | lost

abbrev W (V : Type) := World (Cell V)

/-- Where a handle is stored: in a variable, or as the `i`-th data member of the object managed by the block `b`. -/
inductive Loc
  | var (p : Ptr)
  | mem (b : Ptr) (i : Nat)
deriving DecidableEq

variable {V : Type}

/-- The allocator `SharedCountAllocator()`: shared_ptr.hpp:509. -/
def defaultAlloc : Nat := 0

/-- Access to `*m_refcount`. -/
def rdBlk (b : Ptr) : M (W V) (Blk V) := do
  match (← rd b) with
  | .blk c => pure c
  | _ => fault .wild

/-- Assign members of `*m_refcount`: shared_ptr.hpp:78-79, 127-128. -/
def setBlk (b : Ptr) (c : Blk V) : M (W V) Unit := modCell b fun _ => .blk c

/-- Access to `*m_ptr`: the object must be alive. -/
def rdObj (b : Ptr) : M (W V) (Obj V) := do
  match (← rdBlk b).obj with
  | some o => pure o
  | none => fault .rawRead

/-- Read the handle of kind `k` stored at `l`. -/
def getH (k : Kind) : Loc → M (W V) Hnd
  | .var p => do
    match (← rd p) with
    | .var k' h => if k' = k then pure h else fault .wild
    | _ => fault .wild
  | .mem b i => do
    match (← rdObj b).mem[i]? with
    | some (k', h) => if k' = k then pure h else fault .wild
    | none => fault .outOfBounds

/-- Overwrite the handle of kind `k` stored at `l`. -/
def setH (k : Kind) (l : Loc) (h : Hnd) : M (W V) Unit := do
  let _ ← getH k l
  match l with
  | .var p => modCell p fun _ => .var k h
  | .mem b i => do
    let c ← rdBlk b
    let o ← rdObj b
    setBlk b { c with obj := some { o with mem := o.mem.set i (k, h) } }

/-- `shared_count_base::use_count`: shared_ptr.hpp:35-39. -/
def blkUseCount (b : Ptr) : M (W V) Nat := do pure (← rdBlk b).use

/-- `shared_count_base::add_ref`: shared_ptr.hpp:41-45. -/
def addRef (b : Ptr) : M (W V) Unit := do
  let c ← rdBlk b
  setBlk b { c with use := c.use + 1 }

/-- `shared_count_base::weak_add_ref`: shared_ptr.hpp:61-65. -/
def weakAddRef (b : Ptr) : M (W V) Unit := do
  let c ← rdBlk b
  setBlk b { c with weak := c.weak + 1 }

/-- `allocator::deallocate`: nestl/allocator.hpp:63-66. -/
def deallocate (alloc : Nat) (b : Ptr) : M (W V) Unit :=
  freeCell b fun
    | .raw o => if o = alloc then .ok () else .error .wrongAllocator
    | _ => .error .freeLive

/-- `type_stored_by_value::destroy_self`: shared_ptr.hpp:112-118.  The block holds a copy of the default constructed
allocator. -/
def destroySelf (b : Ptr) : M (W V) Unit := do
  let c ← rdBlk b
  modCell b fun _ => .raw c.owner                -- destroy(this)
  deallocate defaultAlloc b

/-- `shared_count_base::weak_release`: shared_ptr.hpp:67-75. -/
def weakRelease (b : Ptr) : M (W V) Unit := do
  let c ← rdBlk b
  assertM (0 < c.weak)
  setBlk b { c with weak := c.weak - 1 }
  if c.weak - 1 = 0 ∧ c.use = 0 then destroySelf b else pure ()

/-- End of the lifetime of the last data member (number `i`) of the object in block `b`. -/
def takeMem (b : Ptr) (i : Nat) : M (W V) (Kind × Hnd) := do
  let c ← rdBlk b
  let o ← rdObj b
  match o.mem[i]? with
  | some m => do
    setBlk b { c with obj := some { o with mem := o.mem.take i } }
    pure m
  | none => fault .outOfBounds

/-- The end of the destructor of the managed object: its storage is no longer an object. -/
def endObj (b : Ptr) : M (W V) Unit := do
  let c ← rdBlk b
  setBlk b { c with obj := none }

mutual
/-- `shared_count_base::release`: shared_ptr.hpp:47-59. -/
def release (b : Ptr) : M (W V) Unit := do
  let c ← rdBlk b
  assertM (0 < c.use)
  setBlk b { c with use := c.use - 1 }
  if c.use - 1 = 0 then do
    destroyValue b
    let c ← rdBlk b
    if c.weak = 0 then destroySelf b else pure ()
  else pure ()
partial_fixpoint

/-- `type_stored_by_value::destroy_value`: shared_ptr.hpp:106-110 (with `nestl::detail::destroy`,
nestl/detail/destroy.hpp:17-31): runs the destructor of the managed object. -/
def destroyValue (b : Ptr) : M (W V) Unit := do
  let o ← rdObj b
  destroyMembers b o.mem.length
  endObj b
partial_fixpoint

/-- The implicit destructor of the managed object destroys its data members in reverse order of declaration:
`~shared_ptr` (shared_ptr.hpp:393-400) and `~weak_ptr` (shared_ptr.hpp:266-272). -/
def destroyMembers (b : Ptr) (n : Nat) : M (W V) Unit := do
  match n with
  | 0 => pure ()
  | i + 1 => do
    let m ← takeMem b i
    if m.2.ref = .null then pure ()
    else match m.1 with
      | .sh => release m.2.ref
      | .wk => weakRelease m.2.ref
    destroyMembers b i
partial_fixpoint
end

/-! ### shared_ptr -/

/-- `shared_ptr()`, `shared_ptr(nullptr_t)`: shared_ptr.hpp:348-360. -/
def newShared : M (W V) Ptr := newObj fun _ => .var .sh .nil

/-- `~shared_ptr` of a variable: shared_ptr.hpp:393-400. -/
def dropShared (p : Ptr) : M (W V) Unit := do
  let h ← getH .sh (.var p)
  dropObj p
  if h.ref = .null then pure () else release h.ref

/-- `shared_ptr(const shared_ptr&)`: shared_ptr.hpp:362-371, and the converting constructor, 373-383. -/
def copyShared (l : Loc) : M (W V) Ptr := do
  let h ← getH .sh l
  let p ← newObj fun _ => .var .sh h
  if h.ref = .null then pure () else addRef h.ref
  pure p

/-- `shared_ptr::swap`: shared_ptr.hpp:464-469. -/
def swapShared (l m : Loc) : M (W V) Unit := do
  let a ← getH .sh l
  let b ← getH .sh m
  setH .sh l { a with ptr := b.ptr }
  let b ← getH .sh m
  setH .sh m { b with ptr := a.ptr }
  let a ← getH .sh l
  let b ← getH .sh m
  setH .sh l { a with ref := b.ref }
  let b ← getH .sh m
  setH .sh m { b with ref := a.ref }

/-- `shared_ptr(shared_ptr&&)`: shared_ptr.hpp:385-391. -/
def moveShared (l : Loc) : M (W V) Ptr := do
  let p ← newShared
  swapShared (.var p) l
  pure p

/-- `operator=(const shared_ptr<Y>&)`: shared_ptr.hpp:422-438; also the part of `operator=(const shared_ptr&)` behind
the test for self-assignment, 408-416. -/
def assignSharedY (l m : Loc) : M (W V) Unit := do
  let tmp ← newShared
  swapShared (.var tmp) l
  let h ← getH .sh l
  let o ← getH .sh m
  setH .sh l { h with ptr := o.ptr }
  let h ← getH .sh l
  let o ← getH .sh m
  setH .sh l { h with ref := o.ref }
  let h ← getH .sh l
  if h.ref = .null then pure () else addRef h.ref
  dropShared tmp

/-- `operator=(const shared_ptr&)`: shared_ptr.hpp:403-420. -/
def assignShared (l m : Loc) : M (W V) Unit :=
  if m ≠ l then assignSharedY l m else pure ()

/-- `operator=(shared_ptr<Y>&&)`: shared_ptr.hpp:440-455. -/
def moveAssignShared (l m : Loc) : M (W V) Unit := do
  let tmp ← moveShared l
  dropShared tmp
  let o ← getH .sh m
  let h ← getH .sh l
  setH .sh l { h with ptr := o.ptr }
  let o ← getH .sh m
  setH .sh m { o with ptr := .null }
  let o ← getH .sh m
  let h ← getH .sh l
  setH .sh l { h with ref := o.ref }
  let o ← getH .sh m
  setH .sh m { o with ref := .null }

/-- `shared_ptr::reset`: shared_ptr.hpp:457-462. -/
def resetShared (l : Loc) : M (W V) Unit := do
  let tmp ← newShared
  swapShared (.var tmp) l
  dropShared tmp

/-- `shared_ptr::get`: shared_ptr.hpp:471-475. -/
def get (l : Loc) : M (W V) Ptr := do pure (← getH .sh l).ptr

/-- `operator*`, `operator->`: shared_ptr.hpp:477-489. -/
def deref (l : Loc) : M (W V) Ptr := do
  let h ← getH .sh l
  assertM (h.ptr ≠ .null)
  pure h.ptr

/-- `shared_ptr::use_count`: shared_ptr.hpp:491-495. -/
def useCount (l : Loc) : M (W V) Nat := do
  let h ← getH .sh l
  if h.ref = .null then pure 0 else blkUseCount h.ref

/-- `shared_ptr::unique`: shared_ptr.hpp:497-501. -/
def unique (l : Loc) : M (W V) Bool := do pure ((← useCount l) = 1)

/-- `explicit operator bool`: shared_ptr.hpp:182-185. -/
def toBool (l : Loc) : M (W V) Bool := do pure (0 < (← useCount l))

/-! ### weak_ptr -/

/-- `weak_ptr()`: shared_ptr.hpp:220-224. -/
def newWeak : M (W V) Ptr := newObj fun _ => .var .wk .nil

/-- `weak_ptr(weak_ptr&&)`: shared_ptr.hpp:226-232. -/
def moveWeak (l : Loc) : M (W V) Ptr := do
  let h ← getH .wk l
  let p ← newObj fun _ => .var .wk h
  let o ← getH .wk l
  setH .wk l { o with ptr := .null }
  let o ← getH .wk l
  setH .wk l { o with ref := .null }
  pure p

/-- `weak_ptr(const shared_ptr<T>&)` (shared_ptr.hpp:234-242) and `weak_ptr(const weak_ptr&)` (244-252): a weak_ptr
for the target of the handle of kind `k` at `l`. -/
def toWeak (k : Kind) (l : Loc) : M (W V) Ptr := do
  let h ← getH k l
  let p ← newObj fun _ => .var .wk h
  if h.ref = .null then pure () else weakAddRef h.ref
  pure p

/-- `weak_ptr::reset`: shared_ptr.hpp:255-264. -/
def resetWeak (l : Loc) : M (W V) Unit := do
  let h ← getH .wk l
  if h.ref = .null then pure () else do
    weakRelease h.ref
    let h ← getH .wk l
    setH .wk l { h with ref := .null }
  let h ← getH .wk l
  setH .wk l { h with ptr := .null }

/-- `~weak_ptr` of a variable: shared_ptr.hpp:266-272. -/
def dropWeak (p : Ptr) : M (W V) Unit := do
  let h ← getH .wk (.var p)
  dropObj p
  if h.ref = .null then pure () else weakRelease h.ref

/-- `weak_ptr::operator=(const shared_ptr<T>&)` (shared_ptr.hpp:274-289) and `operator=(const weak_ptr&)` (291-306). -/
def assignWeak (k : Kind) (l m : Loc) : M (W V) Unit := do
  let h ← getH .wk l
  if h.ref = .null then pure () else weakRelease h.ref
  let o ← getH k m
  let h ← getH .wk l
  setH .wk l { h with ptr := o.ptr }
  let o ← getH k m
  let h ← getH .wk l
  setH .wk l { h with ref := o.ref }
  let h ← getH .wk l
  if h.ref = .null then pure () else weakAddRef h.ref

/-- `weak_ptr::operator=(weak_ptr&&)`: shared_ptr.hpp:308-316. -/
def moveAssignWeak (l m : Loc) : M (W V) Unit := do
  let tmp ← moveWeak l
  let o ← getH .wk m
  let h ← getH .wk l
  setH .wk l { h with ptr := o.ptr }
  let o ← getH .wk m
  let h ← getH .wk l
  setH .wk l { h with ref := o.ref }
  dropWeak tmp

/-- `weak_ptr::use_count`: shared_ptr.hpp:323-331. -/
def weakUseCount (l : Loc) : M (W V) Nat := do
  let h ← getH .wk l
  if h.ref = .null then pure 0 else blkUseCount h.ref

/-- `weak_ptr::expired`: shared_ptr.hpp:318-321. -/
def expired (l : Loc) : M (W V) Bool := do pure ((← weakUseCount l) = 0)

/-- `weak_ptr::lock`: shared_ptr.hpp:333-336, with the private constructor 191-199. -/
def lock (l : Loc) : M (W V) Ptr := do
  let h ← getH .wk l
  let p ← newObj fun _ => .var .sh h
  if h.ref = .null then pure () else addRef h.ref
  pure p

/-! ### make_shared -/

/-- The destructor of `deallocation_scoped_guard` (nestl/detail/destroy.hpp:60-89) in `make_shared_a_nothrow`, when it
has not been released: frees the storage without destroying the control block in it. -/
def guardFree (b : Ptr) : M (W V) Unit := do
  match (← rd b) with
  | .blk c => do
    let _ ← newObj fun _ => .lost
    modCell b fun _ => .raw c.owner
  | _ => pure ()
  deallocate defaultAlloc b

/-- `make_shared_a_nothrow<T>(err, alloc, args...)`: shared_ptr.hpp:503-532.  `v` and `ks` are the value and the
members of the new object; the members start empty.  The argument `alloc` is not used by the code. -/
def makeShared (_alloc : Nat) (v : V) (ks : List Kind) : M (W V) Ptr := do
  let b ← allocCell fun _ => .raw defaultAlloc
  if (← hasErr) then newShared else do
  modCell b fun _ => .blk ⟨0, 0, none, defaultAlloc⟩        -- construct(err, ptr, sharedCountAlloc): does not fail
  if (← hasErr) then do guardFree b; newShared else do
  let ok ← tryCtor                                          -- ptr->initialize(err, args...)
  if ok then do
    let c ← rdBlk b
    setBlk b { c with obj := some ⟨v, ks.map fun k => (k, .nil)⟩ }
  else pure ()
  if (← hasErr) then do guardFree b; newShared else do
  let p ← newObj fun _ => .var .sh ⟨b, b⟩
  addRef b
  pure p

end Nestl.SP
