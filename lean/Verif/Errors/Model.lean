import Verif.Base
set_option autoImplicit false
/-
The two classes of error objects: `has_exceptions::exception_ptr_error` (nestl/has_exceptions/exception_ptr_error.hpp, below `ex.hpp`) and
`no_exceptions::errc_based_error` (nestl/no_exceptions/errc_based_error.hpp, below `errc.hpp`), one of which is
`default_operation_error` (nestl/default_operation_error.hpp:12-15 with nestl/exception_support.hpp:11-21).
-/
namespace Nestl.Errors

/-- The exceptions that are thrown: those of the standard library that nestl names, and those of the client. -/
inductive Exc
  | badAlloc
  | lengthError
  | badException
  | user (n : Nat)
deriving DecidableEq, Repr

/-- Variables that hold error objects. -/
abbrev Var := Nat

/-- The value of one variable changes. -/
def setv {β : Type} (f : Var → β) (v : Var) (x : β) : Var → β := fun u => if u = v then x else f u

/-! ### exception_ptr_error -/

/-- The exceptions: `full n` says that there is no memory for the exception of the `n`-th call of `std::make_exception_ptr`, which then
returns a pointer to the exception `spare` (`std::bad_alloc` or `std::bad_exception`, [propagation] in the C++ standard). -/
structure Lib where
  full : Nat → Bool
  spare : Exc

/-- Exception objects, numbered, and error objects.  An exception object exists as long as a pointer to it exists (`std::exception_ptr` is
a counted pointer), so it is never removed here. -/
structure PSt where
  objs : List Exc
  made : Nat
  /-- `m_exception`: ex.hpp:40; null or the number of an exception object. -/
  vars : Var → Option Nat

/-- A client's exception that is being handled: it exists independently of error objects; `std::current_exception()` points to it. -/
def PSt.thrownExc (s : PSt) (x : Exc) : Nat × PSt := (s.objs.length, { s with objs := s.objs ++ [x] })

/-- `std::make_exception_ptr`. -/
def PSt.makePtr (L : Lib) (s : PSt) (x : Exc) : Nat × PSt :=
  (s.objs.length, { s with objs := s.objs ++ [if L.full s.made then L.spare else x], made := s.made + 1 })

/-- `from_exception_ptr`: ex.hpp:43-48 with the constructor and the (implicit) assignment: ex.hpp:24-27. -/
def fromExceptionPtr (v : Var) (p : Option Nat) (s : PSt) : PSt := { s with vars := setv s.vars v p }

/-- `from_exception`: ex.hpp:50-56. -/
def fromException (L : Lib) (v : Var) (x : Exc) (s : PSt) : PSt :=
  let r := s.makePtr L x
  fromExceptionPtr v (some r.1) r.2

/-- `build_length_error`: ex.hpp:61-66. -/
def pBuildLengthError (L : Lib) (v : Var) (s : PSt) : PSt := fromException L v .lengthError s

/-- `build_bad_alloc`: ex.hpp:68-73. -/
def pBuildBadAlloc (L : Lib) (v : Var) (s : PSt) : PSt := fromException L v .badAlloc s

/-- `exception_ptr_error()`: ex.hpp:19-22. -/
def pFresh (v : Var) (s : PSt) : PSt := { s with vars := setv s.vars v none }

/-- The implicit copy constructor and assignment of `exception_ptr_error`: the pointer is copied. -/
def pCopy (v t : Var) (s : PSt) : PSt := { s with vars := setv s.vars v (s.vars t) }

/-- A constructor of an element throws and the exception is caught: nestl/has_exceptions/detail/class_operations.hpp:33-39. -/
def pCaught (v : Var) (x : Exc) (s : PSt) : PSt :=
  let r := s.thrownExc x
  fromExceptionPtr v (some r.1) r.2

/-- `operator bool`: ex.hpp:34-37. -/
def pTest (v : Var) (s : PSt) : Bool := (s.vars v) != none

/-- `throw_exception`: ex.hpp:76-81; `std::rethrow_exception` of a null pointer is undefined behaviour. -/
def throwException (v : Var) : M PSt Exc := fun s =>
  match s.vars v with
  | none => some (.error .nullDeref)
  | some i =>
    match s.objs[i]? with
    | some x => some (.ok (x, s))
    | none => some (.error .wild)

/-! ### errc_based_error -/

/-- `nestl::errc`: errc.hpp:13-18; the C standard requires distinct positive values. -/
structure Errno where
  EINVAL : Int
  ENOMEM : Int
  ERANGE : Int
  pos : 0 < EINVAL ∧ 0 < ENOMEM ∧ 0 < ERANGE
  diff : EINVAL ≠ ENOMEM ∧ EINVAL ≠ ERANGE ∧ ENOMEM ≠ ERANGE

/-- `m_value` of every error object: errc.hpp:50. -/
abbrev CSt := Var → Int

/-- `errc_based_error()`: errc.hpp:29-32. -/
def cFresh (v : Var) (s : CSt) : CSt := setv s v 0

/-- `errc_based_error(int)` and the implicit assignment: errc.hpp:34-37. -/
def cSet (v : Var) (n : Int) (s : CSt) : CSt := setv s v n

/-- The implicit copy constructor and assignment. -/
def cCopy (v t : Var) (s : CSt) : CSt := setv s v (s t)

/-- `build_length_error`: errc.hpp:53-58. -/
def cBuildLengthError (C : Errno) (v : Var) (s : CSt) : CSt := cSet v C.ERANGE s

/-- `build_bad_alloc`: errc.hpp:60-65. -/
def cBuildBadAlloc (C : Errno) (v : Var) (s : CSt) : CSt := cSet v C.ENOMEM s

/-- `operator bool`: errc.hpp:44-47. -/
def cTest (v : Var) (s : CSt) : Bool := (s v) != 0

/-- `value()`: errc.hpp:39-42. -/
def cValue (v : Var) (s : CSt) : Int := s v

/-! ### Programs that use error objects -/

/-- What the containers, the allocators and their clients do with error objects (`α` is the result). -/
inductive Prog (α : Type)
  | ret (a : α)
  /-- `default_operation_error v;` -/
  | fresh (v : Var) (k : Prog α)
  /-- `v = t` -/
  | copy (v t : Var) (k : Prog α)
  /-- `build_length_error(v)` -/
  | length (v : Var) (k : Prog α)
  /-- `build_bad_alloc(v)` -/
  | alloc (v : Var) (k : Prog α)
  /-- `if (v)` -/
  | test (v : Var) (k : Bool → Prog α)

/-- A program with `exception_ptr_error`. -/
def Prog.runP {α : Type} (L : Lib) : Prog α → PSt → α × PSt
  | .ret a, s => (a, s)
  | .fresh v k, s => k.runP L (pFresh v s)
  | .copy v t k, s => k.runP L (pCopy v t s)
  | .length v k, s => k.runP L (pBuildLengthError L v s)
  | .alloc v k, s => k.runP L (pBuildBadAlloc L v s)
  | .test v k, s => (k (pTest v s)).runP L s

/-- A program with `errc_based_error`. -/
def Prog.runC {α : Type} (C : Errno) : Prog α → CSt → α × CSt
  | .ret a, s => (a, s)
  | .fresh v k, s => k.runC C (cFresh v s)
  | .copy v t k, s => k.runC C (cCopy v t s)
  | .length v k, s => k.runC C (cBuildLengthError C v s)
  | .alloc v k, s => k.runC C (cBuildBadAlloc C v s)
  | .test v k, s => (k (cTest v s)).runC C s

/-- Operations on objects of the class `exception_ptr_error`. -/
inductive Op
  | fresh (v : Var)
  | copy (v t : Var)
  | length (v : Var)
  | alloc (v : Var)
  /-- `from_exception(v, x)` -/
  | from_ (v : Var) (x : Exc)
  /-- A constructor throws `x`. -/
  | caught (v : Var) (x : Exc)

/-- What an operation does. -/
def Op.run (L : Lib) : Op → PSt → PSt
  | .fresh v => pFresh v
  | .copy v t => pCopy v t
  | .length v => pBuildLengthError L v
  | .alloc v => pBuildBadAlloc L v
  | .from_ v x => fromException L v x
  | .caught v x => pCaught v x

/-- Operations one after the other. -/
def runOps (L : Lib) (ops : List Op) (s : PSt) : PSt := ops.foldl (fun s o => o.run L s) s

/-- No error object has been made. -/
def PSt.init : PSt := ⟨[], 0, fun _ => none⟩

end Nestl.Errors
