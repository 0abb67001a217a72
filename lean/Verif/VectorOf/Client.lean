import Verif.VectorOf.Rel
set_option autoImplicit false
/-
The client view of vectors of objects (nestl/implementation/vector.hpp): API calls, their preconditions, reachable states, and
what a client observes.  The specification of the calls is the one of vectors of values (`VC.Spec`, Verif/Vector/Client.lean).
-/
namespace Nestl.VO
open Nestl.Vec (W rdObj newVec)
variable {S A X : Type}

/-- A `const T&` argument: an object of the client, `v[i]`, or a temporary `T()`. -/
inductive CArg
  | obj (t : Ptr)
  | elem (v : Ptr) (i : Nat)
  | fresh

/-- Calls a client can make. -/
inductive Call
  | create (alloc : Nat)                                -- `vector v(alloc);`
  | pushBack (v : Ptr) (a : CArg)                       -- `v.push_back_nothrow(err, a)`; `v.emplace_back_nothrow(err)` for `T()`
  | pushMove (v t : Ptr)                                -- `v.push_back_nothrow(err, std::move(t))`
  | clear (v : Ptr)                                     -- `v.clear()`
  | reserve (v : Ptr) (n : Nat)                         -- `v.reserve_nothrow(err, n)`
  | shrink (v : Ptr)                                    -- `v.shrink_to_fit_nothrow(err)`
  | resize (v : Ptr) (n : Nat) (a : CArg)               -- `v.resize_nothrow(err, n, a)`; `v.resize_nothrow(err, n)` for `T()`
  | assignN (v : Ptr) (n : Nat) (a : CArg)              -- `v.assign_nothrow(err, n, a)`
  | assignObjs (v : Ptr) (ts : List Ptr)                -- `v.assign_nothrow(err, first, last)`, a range of objects of the client
  | assignSub (v t : Ptr) (i n : Nat)                   -- `v.assign_nothrow(err, t.begin() + i, t.begin() + i + n)`
  | copy (d v : Ptr)                                    -- `d.copy_nothrow(err, v)`
  | move (v : Ptr)                                      -- `vector d(std::move(v));`
  | moveAssign (v t : Ptr)                              -- `v = std::move(t);`
  | swap (v t : Ptr)                                    -- `v.swap(t)`
  | destroy (v : Ptr)                                   -- end of the lifetime of `v`

/-- Evaluate an argument expression to a reference: `operator[]`, vector.hpp:345-359. -/
def evalArg : CArg → M (NS S) Arg
  | .obj t => pure (.obj t)
  | .elem v i => do
    let o ← onO (rdObj v)
    assertM (i < o.fin)
    pure (.ref o.start i)
  | .fresh => pure .none

/-- The program executed by a call. -/
def exec [Vec.ElemSize Ptr] (E : ElemOps S) : Call → M (NS S) VC.Res
  | .create a => do pure (.obj (← onO (newVec a)))
  | .pushBack v a => do VO.pushBack E v (← evalArg a); pure .unit
  | .pushMove v t => do VO.pushBack E v (.mov t); pure .unit
  | .clear v => do VO.clear E v; pure .unit
  | .reserve v n => do VO.reserve E v n; pure .unit
  | .shrink v => do shrinkToFit E v; pure .unit
  | .resize v n a => do VO.resize E v n (← evalArg a); pure .unit
  | .assignN v n a => do VO.assignN E v n (← evalArg a); pure .unit
  | .assignObjs v ts => do assignRandom E v (ts.map .obj); pure .unit
  | .assignSub v t i n => do assignRandom E v (refs (← onO (Vec.begin_ t)) i n); pure .unit
  | .copy d v => do copyNothrow E d v; pure .unit
  | .move v => do pure (.obj (← onO (Vec.moveCtor v)))
  | .moveAssign v t => do VO.moveAssign E v t; pure .unit
  | .swap v t => do onO (Vec.swap v t); pure .unit
  | .destroy v => do destroyVec E v; pure .unit

/-- The vector `v` consists of the objects `qs`. -/
def Objs (s : NS S) (v : Ptr) (qs : List Ptr) : Prop := VC.Contents s.o v qs

/-- `q` is an element of a vector. -/
def IsElem (s : NS S) (q : Ptr) : Prop := ∃ v qs, VC.Alive s.o v ∧ Objs s v qs ∧ q ∈ qs

/-- The same call on vectors whose elements are addresses; used for the preconditions that only concern the vectors. -/
def CArg.addr : CArg → VC.CArg Ptr
  | .obj t => .val t
  | .elem v i => .elem v i
  | .fresh => .val .null

/-- See `CArg.addr`. -/
def Call.addr : Call → VC.Call Ptr
  | .create a => .create a
  | .pushBack v a => .pushBack v a.addr
  | .pushMove v t => .pushBack v (.val t)
  | .clear v => .clear v
  | .reserve v n => .reserve v n
  | .shrink v => .shrink v
  | .resize v n a => .resize v n a.addr
  | .assignN v n a => .assignN v n a.addr
  | .assignObjs v ts => .assignVals v ts
  | .assignSub v t i n => .assignSub v t i n
  | .copy d v => .copy d v
  | .move v => .move v
  | .moveAssign v t => .moveAssign v t
  | .swap v t => .swap v t
  | .destroy v => .destroy v

/-- The object of an argument. -/
def CArg.uses : CArg → Ptr → Prop
  | .obj t, q => q = t
  | _, _ => False

/-- The objects of the client a call is given. -/
def Call.uses : Call → Ptr → Prop
  | .pushBack _ a, q | .resize _ _ a, q | .assignN _ _ a, q => a.uses q
  | .pushMove _ t, q => q = t
  | .assignObjs _ ts, q => q ∈ ts
  | _, _ => False

/-- Preconditions of calls: those of `VC.Valid`, and objects that are passed exist and do not belong to a vector (an element is
passed as `v[i]`). -/
def Valid [Vec.ElemSize Ptr] (E : Elem S A X) (s : NS S) (c : Call) : Prop :=
  VC.Valid s.o c.addr ∧ ∀ q, c.uses q → E.val s.i q ≠ none ∧ ¬ IsElem s q

/-- What is inserted in front of an element: a copy, or an object that is moved. -/
inductive Ins
  | copy (a : CArg)                                     -- `v.insert_nothrow(err, v.begin() + i, a)`
  | move (t : Ptr)                                      -- `v.insert_nothrow(err, v.begin() + i, std::move(t))`

/-- The program executed by an insertion at the position `i`: vector.hpp:560-574. -/
def insExec [Vec.ElemSize Ptr] (E : ElemOps S) (v : Ptr) (i : Nat) : Ins → M (NS S) VC.Res
  | .copy a => do pure (.pos (← insertValue E v i (← evalArg a)))
  | .move t => do pure (.pos (← insertValue E v i (.mov t)))

/-- The object an insertion is given. -/
def Ins.uses : Ins → Ptr → Prop
  | .copy a, q => a.uses q
  | .move t, q => q = t

/-- The argument of an insertion. -/
def Ins.arg : Ins → CArg
  | .copy a => a
  | .move t => .obj t

/-- Preconditions of insertions: the position exists; an argument that is an element of the vector itself is in front of the position
and there is room for another element (C41, C42); an object that is passed exists and does not belong to a vector. -/
structure InsValid (E : Elem S A X) (s : NS S) (v : Ptr) (i : Nat) (x : Ins) : Prop where
  alive : VC.Alive s.o v
  pos : ∃ qs, Objs s v qs ∧ i ≤ qs.length
  arg : VC.ArgOk s.o x.arg.addr
  apart : VC.Foreign v x.arg.addr ∨ VC.Spare s.o v ∧ ∃ j, x.arg = .elem v j ∧ j < i
  uses : ∀ q, x.uses q → E.val s.i q ≠ none ∧ ¬ IsElem s q

/-- What an argument means for vectors of values; `f` are the values of the objects. -/
def CArg.Means (blank : A) (f : Ptr → Option A) : CArg → VC.CArg A → Prop
  | .obj t, .val x => f t = some x
  | .elem v i, .elem v' i' => v = v' ∧ i = i'
  | .fresh, .val x => x = blank
  | _, _ => False

/-- The call on vectors of values that a call on vectors of objects stands for. -/
def Call.Means (blank : A) (f : Ptr → Option A) : Call → VC.Call A → Prop
  | .create a, c => c = .create a
  | .pushBack v a, c => ∃ b, a.Means blank f b ∧ c = .pushBack v b
  | .pushMove v t, c => ∃ x, f t = some x ∧ c = .pushBack v (.val x)
  | .clear v, c => c = .clear v
  | .reserve v n, c => c = .reserve v n
  | .shrink v, c => c = .shrink v
  | .resize v n a, c => ∃ b, a.Means blank f b ∧ c = .resize v n b
  | .assignN v n a, c => ∃ b, a.Means blank f b ∧ c = .assignN v n b
  | .assignObjs v ts, c => ∃ xs : List A, ts.map f = xs.map some ∧ c = .assignVals v xs
  | .assignSub v t i n, c => c = .assignSub v t i n
  | .copy d v, c => c = .copy d v
  | .move v, c => c = .move v
  | .moveAssign v t, c => c = .moveAssign v t
  | .swap v t, c => c = .swap v t
  | .destroy v, c => c = .destroy v

/-- The insertion into a vector of values that an insertion into a vector of objects stands for. -/
def Ins.Means (blank : A) (f : Ptr → Option A) (x : Ins) (b : VC.CArg A) : Prop := x.arg.Means blank f b

/-- A fresh error object is passed to every call. -/
def ready (s : NS S) : NS S := ⟨VC.ready s.o, s.i⟩

/-- Reachable states: after calls on vectors, insertions (except those in front of an element that failed: they may break the vector,
C33), and, in between, anything that the client does with objects of the element class (its own or elements of vectors), as long as the
elements of the vectors are not destroyed. -/
inductive Reach [Vec.ElemSize Ptr] (E : Elem S A X) : NS S → Prop
  | start {env : Env (Vec.VCell Ptr)} {i : S} : E.inv i → Reach E ⟨VC.start env, i⟩
  | call {s s' : NS S} {c : Call} {r : VC.Res} : Reach E s → Valid E s c → Runs (exec E.toElemOps c) (ready s) r s' → Reach E s'
  | insert {s s' : NS S} {v : Ptr} {i : Nat} {x : Ins} {r : VC.Res} : Reach E s → InsValid E s v i x →
      Runs (insExec E.toElemOps v i x) (ready s) r s' → (s'.o.err = none ∨ ∃ qs, Objs s v qs ∧ i = qs.length) → Reach E s'
  | client {s : NS S} {i : S} : Reach E s → E.inv i → (∀ q, IsElem s q → E.val i q ≠ none) → Reach E ⟨s.o, i⟩

/-- The values of the elements of the vector `v` are `L`. -/
def Values (E : Elem S A X) (s : NS S) (v : Ptr) (L : List A) : Prop := ∃ qs, Objs s v qs ∧ qs.map (E.val s.i) = L.map some

/-- The vectors of the state `s` are `B`: their allocators and the values of their elements. -/
def Shows (E : Elem S A X) (s : NS S) (B : VC.AState A) : Prop :=
  (∀ v, VC.Alive s.o v ↔ B v ≠ none) ∧ ∀ v al L, B v = some (al, L) → VC.HasAlloc s.o v al ∧ Values E s v L

/-- The value of an object that does not belong to a vector after a call: a moved-from object is empty. -/
def Call.After (blank : A) (c : Call) (failed : Bool) (q : Ptr) (x y : A) : Prop :=
  match c with
  | .pushMove _ t => if q = t ∧ failed = false then y = blank else y = x
  | _ => y = x

end Nestl.VO
