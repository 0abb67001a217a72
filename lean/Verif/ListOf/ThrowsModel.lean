import Verif.ListOf.RefProps
set_option autoImplicit false
/-
`nestl::has_exceptions::list` (nestl/has_exceptions/list.hpp, below `hx/list.hpp`) for elements of any class, as in
Verif/Exceptions/ListModel.lean: a throwing function returns `Except Err α`, `.error e` if it throws the error `e`.
Not modelled: `operator=(list&&)` (hx/list.hpp:44-47), which does not compile.
-/
namespace Nestl.LO
open Nestl.VO (ElemOps)
open Nestl.NO (onO)
variable {S : Type} (E : ElemOps S)

/-- `default_operation_error err;`: a new error object without error, hx/list.hpp:51, 105, 115. -/
def freshErr : M (ST S) Unit := fun s => some (.ok ((), ready s))

/-- `if (err) throw_exception(err);`: hx/list.hpp:53-56, exception_ptr_error.hpp:74-80; the error object goes out of scope.  What is
thrown is the error stored in `err`. -/
def takeErr : M (ST S) (Option Err) := fun s => some (.ok (s.o.err, ready s))

/-- The result of a throwing function without a value. -/
def thrown : Option Err → Except Err Unit
  | some e => .error e
  | none => .ok ()

/-- `push_back(const value_type&)` and `push_back(value_type&&)`: hx/list.hpp:103-121. -/
def pushBackThrows (s : Ptr) (a : Arg) : M (ST S) (Except Err Unit) := do
  freshErr
  pushBack E s a
  pure (thrown (← takeErr))

/-- What is appended: a copy, or an object that is moved. -/
inductive Push
  | copy (a : CArg)
  | move (t : Ptr)

/-- `s.push_back(x)` as written by a client. -/
def callPush (s : Ptr) : Push → M (ST S) (Except Err Unit)
  | .copy a => pushBackThrows E s a.arg
  | .move t => pushBackThrows E s (.mov t)

/-- `list(const list&)`: hx/list.hpp:49-57.  There is no mem-initializer for the base class, so the new list has a default constructed
allocator.  If the body throws, the destructor of the base class is run. -/
def copyCtor (t : Ptr) : M (ST S) (Except Err Ptr) := do
  let d ← onO (LL.newList LL.defaultAlloc)
  freshErr
  copyNothrow E d t
  match (← takeErr) with
  | some e => do
    destroyList E d
    pure (.error e)
  | none => pure (.ok d)

/-- `operator=(const list&)`: hx/list.hpp:59-65. -/
def copyAssign (s t : Ptr) : M (ST S) (Except Err Unit) := do
  match (← copyCtor E t) with
  | .error e => pure (.error e)
  | .ok tmp => do
    onO (LL.swap s tmp)
    destroyList E tmp
    pure (.ok ())

end Nestl.LO
