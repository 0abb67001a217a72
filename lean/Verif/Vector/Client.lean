import Verif.Vector.Model
set_option autoImplicit false
/-
The client view of `nestl::vector` (nestl/implementation/vector.hpp): client programs, API calls, histories of calls, and
the mathematical specification used by the property theorems in `Verif/Vector/Props.lean`.  The state of a vector is
observed by `size()`, `operator[]`, `capacity()`, `begin()` and `get_allocator()`.
-/
namespace Nestl.VC
open Nestl.Vec
variable {V : Type}

/-- Client loop `for (i = first; i != first + n; ++i) out.push_back(v[i]);` (vector.hpp:345-359). -/
def walkFrom (s : Ptr) (i : Nat) : Nat → M (W V) (List V)
  | 0 => pure []
  | n + 1 => do
    let x ← at_ s i
    let rest ← walkFrom s (i + 1) n
    pure (x :: rest)

/-- Read all elements by index: `v[0]`, ..., `v[v.size() - 1]`. -/
def walk (s : Ptr) : M (W V) (List V) := do walkFrom s 0 (← size s)

/-- Client loop `for (it = begin(); it != end(); ++it) out.push_back(*it);`: the iterators are pointers into the block
(vector.hpp:41-44), `begin()` is `m_start` and `end()` is `m_finish` (409-491). -/
def iterateFrom (p : Ptr) (i : Nat) : Nat → M (W V) (List V)
  | 0 => pure []
  | n + 1 => do
    let x ← slotRd p i
    let rest ← iterateFrom p (i + 1) n
    pure (x :: rest)

/-- Visit a vector from `begin()` to `end()`. -/
def iterate (s : Ptr) : M (W V) (List V) := do
  let o ← rdObj s
  iterateFrom o.start 0 o.fin

/-- Client loop `for (it = rbegin(); it != rend(); ++it) out.push_back(*it);`: `rbegin()` is `reverse_iterator(m_finish)` and
`rend()` is `reverse_iterator(m_start)` (vector.hpp:451-491); `*it` is the element before the pointer held (`i + 1` here) and
`++it` decrements that pointer (`std::reverse_iterator`). -/
def iterateBackFrom (p : Ptr) : Nat → M (W V) (List V)
  | 0 => pure []
  | i + 1 => do
    let x ← slotRd p i
    let rest ← iterateBackFrom p i
    pure (x :: rest)

/-- Visit a vector from `rbegin()` to `rend()`. -/
def iterateBack (s : Ptr) : M (W V) (List V) := do
  let o ← rdObj s
  iterateBackFrom o.start o.fin

/-- The contents of the vector object `s` as a client sees them. -/
def Contents (w : W V) (s : Ptr) (L : List V) : Prop := Runs (walk s) w L w

/-- `a` is the allocator of the vector `s`. -/
def HasAlloc (w : W V) (s : Ptr) (a : Nat) : Prop := Runs (getAlloc s) w a w

/-- `c` is the capacity of the vector `s`. -/
def HasCap (w : W V) (s : Ptr) (c : Nat) : Prop := Runs (capacity s) w c w

/-- `p` is the address of the block of the vector `s`. -/
def HasData (w : W V) (s p : Ptr) : Prop := Runs (begin_ s) w p w

/-- `s` is a vector object within its lifetime. -/
def Alive (w : W V) (s : Ptr) : Prop := ∃ i, s = .stk i ∧ w.heap s ≠ none

/-- A `const T&` argument: a value outside of the vectors, or `t[i]`. -/
inductive CArg (V : Type)
  | val (v : V)
  | elem (t : Ptr) (i : Nat)

/-- Evaluate an argument expression to a reference: `operator[]`, vector.hpp:345-359. -/
def evalArg : CArg V → M (W V) (Arg V)
  | .val v => pure (.lit v)
  | .elem t i => do
    let o ← rdObj t
    assertM (i < o.fin)
    pure (.ref o.start i)

/-- Calls a client can make. -/
inductive Call (V : Type)
  | create (alloc : Nat)                                -- `vector s(alloc);`
  | pushBack (s : Ptr) (a : CArg V)                     -- `s.push_back_nothrow(err, a)`, `s.emplace_back_nothrow(err, a)`
  | insert (s : Ptr) (i : Nat) (a : CArg V)             -- `s.insert_nothrow(err, s.begin() + i, a)`
  | insertVals (s : Ptr) (i : Nat) (vs : List V)        -- `s.insert_nothrow(err, s.begin() + i, first, last)`
  | clear (s : Ptr)                                     -- `s.clear()`
  | reserve (s : Ptr) (n : Nat)                         -- `s.reserve_nothrow(err, n)`
  | shrink (s : Ptr)                                    -- `s.shrink_to_fit_nothrow(err)`
  | resize (s : Ptr) (n : Nat) (a : CArg V)             -- `s.resize_nothrow(err, n, a)`; `resize_nothrow(err, n)`: `a` is `T()`
  | assignN (s : Ptr) (n : Nat) (a : CArg V)            -- `s.assign_nothrow(err, n, a)`
  | assignVals (s : Ptr) (vs : List V)                  -- `s.assign_nothrow(err, vs, vs + n)`, random access iterators
  | assignInput (s : Ptr) (vs : List V)                 -- `s.assign_nothrow(err, first, last)`, input iterators
  | assignSub (s t : Ptr) (i n : Nat)                   -- `s.assign_nothrow(err, t.begin() + i, t.begin() + i + n)`
  | copy (d s : Ptr)                                    -- `d.copy_nothrow(err, s)`
  | move (s : Ptr)                                      -- `vector d(std::move(s));`
  | moveAssign (s t : Ptr)                              -- `s = std::move(t);`
  | swap (s t : Ptr)                                    -- `s.swap(t)`
  | destroy (s : Ptr)                                   -- end of the lifetime of `s`

/-- Results of calls. -/
inductive Res
  | unit
  | obj (s : Ptr)                                       -- a new vector object
  | pos (i : Nat)                                       -- the iterator `begin() + i`
  deriving DecidableEq

/-- The program executed by a call. -/
def exec [ElemSize V] : Call V → M (W V) Res
  | .create a => do pure (.obj (← newVec a))
  | .pushBack s a => do Vec.pushBack s (← evalArg a); pure .unit
  | .insert s i a => do pure (.pos (← insertValue s i (← evalArg a)))
  | .insertVals s i vs => do insertRange s i (vs.map .lit); pure .unit
  | .clear s => do Vec.clear s; pure .unit
  | .reserve s n => do Vec.reserve s n; pure .unit
  | .shrink s => do shrinkToFit s; pure .unit
  | .resize s n a => do Vec.resize s n (← evalArg a); pure .unit
  | .assignN s n a => do Vec.assignN s n (← evalArg a); pure .unit
  | .assignVals s vs => do assignRandom s (vs.map .lit); pure .unit
  | .assignInput s vs => do Vec.assignInput s (vs.map .lit); pure .unit
  | .assignSub s t i n => do assignRandom s (refs (← begin_ t) i n); pure .unit
  | .copy d s => do copyNothrow d s; pure .unit
  | .move s => do pure (.obj (← moveCtor s))
  | .moveAssign s t => do Vec.moveAssign s t; pure .unit
  | .swap s t => do Vec.swap s t; pure .unit
  | .destroy s => do destroyVec s; pure .unit

/-- The argument denotes a value: an element must exist. -/
def ArgOk (w : W V) : CArg V → Prop
  | .val _ => True
  | .elem t i => Alive w t ∧ ∃ L, Contents w t L ∧ i < L.length

/-- The argument is not an element of `s`. -/
def Foreign (s : Ptr) : CArg V → Prop
  | .val _ => True
  | .elem t _ => t ≠ s

/-- `size() < capacity()`. -/
def Spare (w : W V) (s : Ptr) : Prop := ∃ L c, Contents w s L ∧ HasCap w s c ∧ L.length < c

/-- No constructor of an element fails from now on. -/
def Reliable (w : W V) : Prop := ∀ k, w.nCtor ≤ k → w.env.ctor k = true

/-- The byte size of `n` elements is representable in a `size_t`. -/
def Countable (V : Type) [ElemSize V] (n : Nat) : Prop := n * ElemSize.size V < 2 ^ 64

/-- The two vectors have equal allocators. -/
def SameAlloc (w : W V) (s t : Ptr) : Prop := ∃ a, HasAlloc w s a ∧ HasAlloc w t a

/-- Preconditions of calls.  Some are restrictions that `std::vector` does not have: an argument that is an element of
the vector itself must not be affected by the operation (C41 and C42 describe what happens otherwise), positional
insertion before an element requires constructors that do not fail (C33), the requested number of elements must be
representable in bytes (C35), and move assignment requires equal allocators or a source without a block (C44). -/
def Valid [ElemSize V] (w : W V) : Call V → Prop
  | .create _ => True
  | .pushBack s a => Alive w s ∧ ArgOk w a ∧ (Foreign s a ∨ Spare w s)
  | .insert s i a => Alive w s ∧ ArgOk w a ∧ (∃ L, Contents w s L ∧ i ≤ L.length ∧ (i = L.length ∨ Reliable w)) ∧
      (Foreign s a ∨ Spare w s ∧ ∃ j, a = .elem s j ∧ j < i)
  | .insertVals s i _ => Alive w s ∧ ∃ L, Contents w s L ∧ i ≤ L.length ∧ (i = L.length ∨ Reliable w)
  | .clear s => Alive w s
  | .reserve s n => Alive w s ∧ Countable V n
  | .shrink s => Alive w s
  | .resize s n a => Alive w s ∧ ArgOk w a ∧ Countable V n ∧ (Foreign s a ∨ ∃ L, Contents w s L ∧ n ≤ L.length)
  | .assignN s n a => Alive w s ∧ ArgOk w a ∧ Countable V n
  | .assignVals s vs => Alive w s ∧ Countable V vs.length
  | .assignInput s _ => Alive w s
  | .assignSub s t i n => Alive w s ∧ Alive w t ∧ ∃ L, Contents w t L ∧ i + n ≤ L.length
  | .copy d s => Alive w d ∧ Alive w s
  | .move s => Alive w s
  | .moveAssign s t => Alive w s ∧ Alive w t ∧ (s = t ∨ HasData w t .null ∨ SameAlloc w s t)
  | .swap s t => Alive w s ∧ Alive w t
  | .destroy s => Alive w s

/-- A fresh error object is passed to every call. -/
def ready (w : W V) : W V := { w with err := none }

/-- The state before the program starts: no objects, no allocations. -/
def start (env : Env (VCell V)) : W V :=
  { heap := fun _ => none, env := env, nAlloc := 0, nCtor := 0, nCmp := 0, sp := 0, err := none }

/-- One entry of a history: the call, its result, and whether it reported an error. -/
structure Entry (V : Type) where
  call : Call V
  res : Res
  failed : Bool

/-- `Hist env h w`: `w` is reached from the start by the calls of `h` (latest first). -/
inductive Hist [ElemSize V] (env : Env (VCell V)) : List (Entry V) → W V → Prop
  | start : Hist env [] (start env)
  | call {h : List (Entry V)} {w w' : W V} {c : Call V} {r : Res} : Hist env h w → Valid w c →
      Runs (exec c) (ready w) r w' → Hist env (⟨c, r, w'.err.isSome⟩ :: h) w'

/-- Reachable program states. -/
def Reach [ElemSize V] (w : W V) : Prop := ∃ env h, Hist env h w

/-! ### The mathematical specification: vectors as sequences of values -/

/-- For each live vector object its allocator and its sequence of elements. -/
abbrev AState (V : Type) := Ptr → Option (Nat × List V)

/-- The value denoted by an argument. -/
def ArgIs (A : AState V) (x : V) : CArg V → Prop
  | .val v => x = v
  | .elem t i => ∃ al L, A t = some (al, L) ∧ L[i]? = some x

/-- The effect of `c` on the sequences, `failed` tells whether an error was reported and `r` is the result. -/
def Spec (A : AState V) (c : Call V) (r : Res) (failed : Bool) (A' : AState V) : Prop :=
  match c with
  | .create a => failed = false ∧ ∃ s, r = .obj s ∧ A s = none ∧ A' = upd A s (some (a, []))
  | .pushBack s a => ∃ al L x, A s = some (al, L) ∧ ArgIs A x a ∧
      if failed then A' = A else A' = upd A s (some (al, L ++ [x]))
  | .insert s i a => ∃ al L x, A s = some (al, L) ∧ ArgIs A x a ∧ i ≤ L.length ∧
      if failed then r = .pos L.length ∧ A' = A
      else r = .pos i ∧ A' = upd A s (some (al, L.take i ++ x :: L.drop i))
  | .insertVals s i vs => ∃ al L k, A s = some (al, L) ∧ i ≤ L.length ∧ k ≤ vs.length ∧
      (failed = true ↔ k < vs.length) ∧ A' = upd A s (some (al, L.take i ++ vs.take k ++ L.drop i))
  | .clear s => failed = false ∧ ∃ al L, A s = some (al, L) ∧ A' = upd A s (some (al, []))
  | .reserve s _ => ∃ al L, A s = some (al, L) ∧ A' = A
  | .shrink s => ∃ al L, A s = some (al, L) ∧ A' = A
  | .resize s n a => ∃ al L x, A s = some (al, L) ∧ ArgIs A x a ∧
      if n ≤ L.length then failed = false ∧ A' = upd A s (some (al, L.take n))
      else ∃ k, L.length + k ≤ n ∧ (failed = true ↔ L.length + k < n) ∧
        A' = upd A s (some (al, L ++ List.replicate k x))
  | .assignN s n a => ∃ al L x k, A s = some (al, L) ∧ ArgIs A x a ∧ k ≤ n ∧ (failed = false → k = n) ∧
      A' = upd A s (some (defaultAlloc, List.replicate k x))
  | .assignVals s vs => ∃ al L k, A s = some (al, L) ∧ k ≤ vs.length ∧ (failed = false → k = vs.length) ∧
      A' = upd A s (some (defaultAlloc, vs.take k))
  | .assignInput s vs => ∃ al L k, A s = some (al, L) ∧ k ≤ vs.length ∧ (failed = false → k = vs.length) ∧
      A' = upd A s (some (defaultAlloc, vs.take k))
  | .assignSub s t i n => ∃ al L bl M k, A s = some (al, L) ∧ A t = some (bl, M) ∧ i + n ≤ M.length ∧ k ≤ n ∧
      (failed = false → k = n) ∧ A' = upd A s (some (defaultAlloc, (M.drop i).take k))
  | .copy d s => ∃ al L bl M k, A d = some (al, L) ∧ A s = some (bl, M) ∧ k ≤ M.length ∧
      (failed = false → k = M.length) ∧ A' = upd A d (some (defaultAlloc, M.take k))
  | .move s => failed = false ∧ ∃ d al L, r = .obj d ∧ A d = none ∧ A s = some (al, L) ∧
      A' = upd (upd A s (some (al, []))) d (some (al, L))
  | .moveAssign s t => failed = false ∧ ∃ al L bl M, A s = some (al, L) ∧ A t = some (bl, M) ∧
      if s = t then A' = upd A s (some (al, []))
      else A' = upd (upd A s (some (al, M))) t (some (bl, []))
  | .swap s t => failed = false ∧ ∃ al L bl M, A s = some (al, L) ∧ A t = some (bl, M) ∧
      A' = upd (upd A s (some (bl, M))) t (some (al, L))
  | .destroy s => failed = false ∧ ∃ al L, A s = some (al, L) ∧ A' = upd A s none

/-- The mathematical vectors after a history (latest entry first). -/
inductive SpecRun : List (Entry V) → AState V → Prop
  | start : SpecRun [] (fun _ => none)
  | call {h : List (Entry V)} {A A' : AState V} {c : Call V} {r : Res} {b : Bool} : SpecRun h A → Spec A c r b A' →
      SpecRun (⟨c, r, b⟩ :: h) A'

end Nestl.VC
