import Verif.VectorOf.RangeProps
set_option autoImplicit false
/-
`nestl::has_exceptions::vector` (nestl/has_exceptions/vector.hpp, below `hx/vector.hpp`) for elements of any class, as in
Verif/Exceptions/VectorModel.lean: a throwing function returns `Except Err α`, `.error e` if it throws the error `e`.
-/
namespace Nestl.VO
open Nestl.Vec (ElemSize newVec getAlloc)
variable {S : Type} [ElemSize Ptr] (E : ElemOps S)

omit [ElemSize Ptr] in
/-- `default_operation_error err;`: a new error object without error, hx/vector.hpp:114, 126, 191, 203. -/
def freshErr : M (NS S) Unit := fun s => some (.ok ((), ready s))

omit [ElemSize Ptr] in
/-- `if (err) throw_exception(err);`: hx/vector.hpp:116-119, exception_ptr_error.hpp:74-80; the error object goes out of scope.  What
is thrown is the error stored in `err`. -/
def takeErr : M (NS S) (Option Err) := fun s => some (.ok (s.o.err, ready s))

/-- The result of a throwing function without a value. -/
def thrown : Option Err → Except Err Unit
  | some e => .error e
  | none => .ok ()

/-- `push_back(const value_type&)`: hx/vector.hpp:187-197, and `push_back(value_type&&)`: 199-209. -/
def pushBackThrows (v : Ptr) (a : Arg) : M (NS S) (Except Err Unit) := do
  freshErr
  pushBack E v a
  pure (thrown (← takeErr))

/-- `v.push_back(x)` as written by a client. -/
def callPush (v : Ptr) : Ins → M (NS S) (Except Err Unit)
  | .copy a => do pushBackThrows E v (← evalArg a)
  | .move t => pushBackThrows E v (.mov t)

/-- `vector(const vector&)` and `vector(const as_noexcept_type&)`: hx/vector.hpp:110-132.  If the body throws, the destructor of the base
class is run. -/
def copyCtor (t : Ptr) : M (NS S) (Except Err Ptr) := do
  let d ← onO (newVec (← onO (getAlloc t)))
  freshErr
  copyNothrow E d t
  match (← takeErr) with
  | some e => do
    destroyVec E d
    pure (.error e)
  | none => pure (.ok d)

/-- `operator=(const vector&)` and `operator=(const as_noexcept_type&)`: hx/vector.hpp:140-156. -/
def copyAssign (v t : Ptr) : M (NS S) (Except Err Unit) := do
  match (← copyCtor E t) with
  | .error e => pure (.error e)
  | .ok tmp => do
    onO (Vec.swap v tmp)
    destroyVec E tmp
    pure (.ok ())

end Nestl.VO
