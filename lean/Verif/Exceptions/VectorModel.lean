import Verif.Vector.Client
set_option autoImplicit false
/-
`nestl::has_exceptions::vector` (nestl/has_exceptions/vector.hpp, below `hx/vector.hpp`): a class derived from
`nestl::impl::vector` whose operations throw.  A throwing function returns `Except Err α` here: `.error e` if it throws
the error `e`.  The class adds no data members, so its objects are the vector objects of `Verif/Vector/Model.lean`.
-/
namespace Nestl.HxVec
open Nestl.Vec Nestl.VC
variable {V : Type} [ElemSize V]

/-- `default_operation_error err;`: a new error object without error. -/
def freshErr : M (W V) Unit := fun w => some (.ok ((), { w with err := none }))

/-- `if (err) throw_exception(err);`: nestl/has_exceptions/exception_ptr_error.hpp, and the error object goes out of
scope.  What is thrown is the error stored in `err`. -/
def takeErr : M (W V) (Option Err) := fun w => some (.ok (w.err, { w with err := none }))

/-- `push_back(const value_type&)` and `push_back(value_type&&)`: hx/vector.hpp:188-210. -/
def pushBack (s : Ptr) (a : Arg V) : M (W V) (Except Err Unit) := do
  freshErr
  Vec.pushBack s a
  match (← takeErr) with
  | some e => pure (.error e)
  | none => pure (.ok ())

/-- `vector(const vector&)` and `vector(const as_noexcept_type&)`: hx/vector.hpp:110-132.  If the body throws, the
destructor of the base class is run. -/
def copyCtor (t : Ptr) : M (W V) (Except Err Ptr) := do
  let d ← newVec (← getAlloc t)
  freshErr
  copyNothrow d t
  match (← takeErr) with
  | some e => do
    destroyVec d
    pure (.error e)
  | none => pure (.ok d)

/-- `operator=(const vector&)` and `operator=(const as_noexcept_type&)`: hx/vector.hpp:140-156. -/
def copyAssign (s t : Ptr) : M (W V) (Except Err Unit) := do
  match (← copyCtor t) with
  | .error e => pure (.error e)
  | .ok tmp => do
    Vec.swap s tmp
    destroyVec tmp
    pure (.ok ())

/-- `s.push_back(a)` as written by a client. -/
def callPushBack (s : Ptr) (a : CArg V) : M (W V) (Except Err Unit) := do pushBack s (← evalArg a)

end Nestl.HxVec
