import Verif.SharedPtr.Client
set_option autoImplicit false
/-
The destruction of managed objects on a machine with a bounded call stack: the same programs as in
`Verif/SharedPtr/Model.lean`, but a call chain may contain at most `d` activations of `release`; one more is the fault
`stackOverflow`.  Between two nested activations of `release` there is one activation each of `destroy_value`, of the
destructor of the managed object, and of `~shared_ptr`.
-/
namespace Nestl.SP
variable {V : Type}

/-- The implicit destructor of the managed object (as `destroyMembers`): shared_ptr.hpp:393-400 and 266-272; `rec` is the call
of `release`. -/
def destroyMembersW (rec : Ptr → M (W V) Unit) (b : Ptr) : Nat → M (W V) Unit
  | 0 => pure ()
  | i + 1 => do
    let m ← takeMem b i
    if m.2.ref = .null then pure ()
    else match m.1 with
      | .sh => rec m.2.ref
      | .wk => weakRelease m.2.ref
    destroyMembersW rec b i

/-- `type_stored_by_value::destroy_value` (as `destroyValue`): shared_ptr.hpp:106-110. -/
def destroyValueW (rec : Ptr → M (W V) Unit) (b : Ptr) : M (W V) Unit := do
  let o ← rdObj b
  destroyMembersW rec b o.mem.length
  endObj b

/-- `shared_count_base::release` (as `release`): shared_ptr.hpp:47-59. -/
def releaseW (rec : Ptr → M (W V) Unit) (b : Ptr) : M (W V) Unit := do
  let c ← rdBlk b
  assertM (0 < c.use)
  setBlk b { c with use := c.use - 1 }
  if c.use - 1 = 0 then do
    destroyValueW rec b
    let c ← rdBlk b
    if c.weak = 0 then destroySelf b else pure ()
  else pure ()

/-- `release` with room for `d` activations: shared_ptr.hpp:47-59. -/
def releaseD : Nat → Ptr → M (W V) Unit
  | 0, _ => fault .stackOverflow
  | d + 1, b => releaseW (releaseD d) b

/-- `~shared_ptr` of a variable (as `dropShared`): shared_ptr.hpp:393-400. -/
def dropSharedD (d : Nat) (p : Ptr) : M (W V) Unit := do
  let h ← getH .sh (.var p)
  dropObj p
  if h.ref = .null then pure () else releaseD d h.ref

/-- `operator=(const shared_ptr<Y>&)` (as `assignSharedY`): shared_ptr.hpp:422-438. -/
def assignSharedYD (d : Nat) (l m : Loc) : M (W V) Unit := do
  let tmp ← newShared
  swapShared (.var tmp) l
  let h ← getH .sh l
  let o ← getH .sh m
  setH .sh l { h with ptr := o.ptr }
  let h ← getH .sh l
  let o ← getH .sh m
  setH .sh l { h with ref := o.ref }
  let h ← getH .sh l
  if h.ref = .null then pure () else addRef h.ref
  dropSharedD d tmp

/-- `operator=(const shared_ptr&)` (as `assignShared`): shared_ptr.hpp:403-420. -/
def assignSharedD (d : Nat) (l m : Loc) : M (W V) Unit :=
  if m ≠ l then assignSharedYD d l m else pure ()

/-- `operator=(shared_ptr<Y>&&)` (as `moveAssignShared`): shared_ptr.hpp:440-455. -/
def moveAssignSharedD (d : Nat) (l m : Loc) : M (W V) Unit := do
  let tmp ← moveShared l
  dropSharedD d tmp
  let o ← getH .sh m
  let h ← getH .sh l
  setH .sh l { h with ptr := o.ptr }
  let o ← getH .sh m
  setH .sh m { o with ptr := .null }
  let o ← getH .sh m
  let h ← getH .sh l
  setH .sh l { h with ref := o.ref }
  let o ← getH .sh m
  setH .sh m { o with ref := .null }

/-- `shared_ptr::reset` (as `resetShared`): shared_ptr.hpp:457-462. -/
def resetSharedD (d : Nat) (l : Loc) : M (W V) Unit := do
  let tmp ← newShared
  swapShared (.var tmp) l
  dropSharedD d tmp

/-- Execution of a call (as `exec`) with room for `d` activations of `release`. -/
def execD (d : Nat) : Call V → M (W V) (Option Ptr)
  | .dropShared p => do dropSharedD d p; pure none
  | .assignShared l m => do assignSharedD d l m; pure none
  | .assignSharedY l m => do assignSharedYD d l m; pure none
  | .moveAssignShared l m => do moveAssignSharedD d l m; pure none
  | .resetShared l => do resetSharedD d l; pure none
  | c => exec c

end Nestl.SP
