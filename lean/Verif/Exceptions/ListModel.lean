import Verif.LinkedList.Client
set_option autoImplicit false
/-
`nestl::has_exceptions::list` (nestl/has_exceptions/list.hpp, below `hx/list.hpp`): a class derived from
`nestl::impl::list` whose operations throw.  A throwing function returns `Except Err α` here: `.error e` if it throws
the error `e`.  The class adds no data members, so its objects are the list objects of `Verif/LinkedList/Model.lean`.
Not modelled: `operator=(list&&)` (hx/list.hpp:44-47), which does not compile (it returns a base class reference where a
reference to the derived class is declared).
-/
namespace Nestl.HxList
open Nestl.LL Nestl.LC
variable {V : Type}

/-- `default_operation_error err;`: a new error object without error. -/
def freshErr : M (W V) Unit := fun w => some (.ok ((), { w with err := none }))

/-- `if (err) throw_exception(err);`: nestl/has_exceptions/exception_ptr_error.hpp, and the error object goes out of
scope.  What is thrown is the error stored in `err`. -/
def takeErr : M (W V) (Option Err) := fun w => some (.ok (w.err, { w with err := none }))

/-- `push_back(const value_type&)` and `push_back(value_type&&)`: hx/list.hpp:103-121. -/
def pushBack (s : Ptr) (v : V) : M (W V) (Except Err Unit) := do
  freshErr
  LL.pushBack s v
  match (← takeErr) with
  | some e => pure (.error e)
  | none => pure (.ok ())

/-- `list(const list&)`: hx/list.hpp:49-57.  There is no mem-initializer for the base class, so its default constructor
is used, which creates a list with a default constructed allocator.  If the body throws, the destructor of the base class
is run. -/
def copyCtor (t : Ptr) : M (W V) (Except Err Ptr) := do
  let d ← newList defaultAlloc
  freshErr
  copyNothrow d t
  match (← takeErr) with
  | some e => do
    destroyList d
    pure (.error e)
  | none => pure (.ok d)

/-- `operator=(const list&)`: hx/list.hpp:59-65. -/
def copyAssign (s t : Ptr) : M (W V) (Except Err Unit) := do
  match (← copyCtor t) with
  | .error e => pure (.error e)
  | .ok tmp => do
    LL.swap s tmp
    destroyList tmp
    pure (.ok ())

end Nestl.HxList
