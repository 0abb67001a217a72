import Verif.LinkedList.Model
set_option autoImplicit false
/-
The client view of `nestl::list` (nestl/implementation/list.hpp): client programs, API calls, histories of calls, and
the mathematical specification used by the property theorems in `Verif/LinkedList/Props.lean`.  The state of a list is
observed by iterating over it and by `get_allocator()`; nothing here mentions the links between the nodes.
-/
namespace Nestl.LC
open Nestl.LL
variable {V : Type}

/-- Client loop `for (it = first; it != last; ++it) out.push_back({it, *it});` using the iterator operations of
list.hpp:202-415. -/
def walkFrom (it last : Ptr) : M (W V) (List (Ptr × V)) := do
  if (← itEq it last) then pure [] else do
    let v ← deref it
    let rest ← walkFrom (← incr it) last
    pure ((it, v) :: rest)
partial_fixpoint

/-- Visit a list from `begin()` to `end()`: list.hpp:786-826. -/
def walk (s : Ptr) : M (W V) (List (Ptr × V)) := do walkFrom (← begin_ s) (← end_ s)

/-- Client loop `while (it != first) { --it; out.push_back({it, *it}); }` (also what iterating from `rbegin()` to
`rend()` does, list.hpp:828-868). -/
def walkBackFrom (it first : Ptr) : M (W V) (List (Ptr × V)) := do
  if (← itEq it first) then pure [] else do
    let p ← decr it
    let v ← deref p
    let rest ← walkBackFrom p first
    pure ((p, v) :: rest)
partial_fixpoint

/-- Visit a list backwards, from `end()` to `begin()`. -/
def walkBack (s : Ptr) : M (W V) (List (Ptr × V)) := do walkBackFrom (← end_ s) (← begin_ s)

/-- `get_allocator()`: list.hpp:692-696. -/
def getAlloc (s : Ptr) : M (W V) Nat := do pure (← rd s).owner

/-- The contents of the list object `s` as a client sees them: the positions and values visited by iterating. -/
def Contents (w : W V) (s : Ptr) (L : List (Ptr × V)) : Prop := Runs (walk s) w L w

/-- `a` is the allocator of the list `s`. -/
def HasAlloc (w : W V) (s : Ptr) (a : Nat) : Prop := Runs (getAlloc s) w a w

/-- `s` is a list object within its lifetime. -/
def Alive (w : W V) (s : Ptr) : Prop := ∃ i, s = .stk i ∧ w.heap s ≠ none

/-- Calls a client can make. -/
inductive Call (V : Type)
  | create (alloc : Nat)                                -- `list s(alloc);`
  | insert (s pos : Ptr) (v : V)                        -- `s.insert_nothrow(err, pos, v)`, `s.emplace_nothrow(err, pos, v)`
  | insertN (s pos : Ptr) (n : Nat) (v : V)             -- `s.insert_nothrow(err, pos, n, v)`
  | insertRange (s pos : Ptr) (vs : List V)             -- `s.insert_nothrow(err, pos, vs.begin(), vs.end())`
  | erase (s pos : Ptr)                                 -- `s.erase(pos)`
  | eraseRange (s first last : Ptr)                     -- `s.erase(first, last)`
  | pushBack (s : Ptr) (v : V)                          -- `s.push_back_nothrow(err, v)`, `s.emplace_back_nothrow(err, v)`
  | pushFront (s : Ptr) (v : V)                         -- `s.push_front_nothrow(err, v)`, `s.emplace_front_nothrow(err, v)`
  | popBack (s : Ptr)                                   -- `s.pop_back()`
  | popFront (s : Ptr)                                  -- `s.pop_front()`
  | clear (s : Ptr)                                     -- `s.clear()`
  | assignN (s : Ptr) (n : Nat) (v : V)                 -- `s.assign_nothrow(err, n, v)`
  | assignVals (s : Ptr) (vs : List V)                  -- `s.assign_nothrow(err, vs.begin(), vs.end())`
  | assignRange (s t first last : Ptr)                  -- `s.assign_nothrow(err, first, last)`, a range of list `t`
  | copy (d s : Ptr)                                    -- `d.copy_nothrow(err, s)`
  | move (s : Ptr)                                      -- `list d(std::move(s));`
  | moveAssign (s t : Ptr)                              -- `s = std::move(t)`
  | swap (s t : Ptr)                                    -- `s.swap(t)`
  | merge (lt : V → V → Bool) (s t : Ptr)               -- `s.merge(t, lt)`
  | spliceAll (s pos t : Ptr)                           -- `s.splice(pos, t)`
  | spliceOne (s pos t it : Ptr)                        -- `s.splice(pos, t, it)`
  | spliceRange (s pos t first last : Ptr)              -- `s.splice(pos, t, first, last)`
  | sort (lt : V → V → Bool) (s : Ptr)                  -- `s.sort(lt)`
  | destroy (s : Ptr)                                   -- end of the lifetime of `s`

/-- Results of calls. -/
inductive Res
  | unit
  | obj (s : Ptr)                                       -- a new list object
  | pos (it : Ptr)                                      -- an iterator

/-- The program executed by a call. -/
def exec : Call V → M (W V) Res
  | .create a => do pure (.obj (← newList a))
  | .insert s pos v => do pure (.pos (← emplace s pos v))
  | .insertN s pos n v => do LL.insertN s pos v n; pure .unit
  | .insertRange s pos vs => do LL.insertRange s pos vs; pure .unit
  | .erase s pos => do pure (.pos (← LL.erase s pos))
  | .eraseRange s f l => do pure (.pos (← LL.eraseRange s f l))
  | .pushBack s v => do LL.pushBack s v; pure .unit
  | .pushFront s v => do LL.pushFront s v; pure .unit
  | .popBack s => do LL.popBack s; pure .unit
  | .popFront s => do LL.popFront s; pure .unit
  | .clear s => do LL.clear s; pure .unit
  | .assignN s n v => do LL.assignN s n v; pure .unit
  | .assignVals s vs => do LL.assignVals s vs; pure .unit
  | .assignRange s _ f l => do assignIt s f l; pure .unit
  | .copy d s => do copyNothrow d s; pure .unit
  | .move s => do pure (.obj (← moveCtor s))
  | .moveAssign s t => do LL.moveAssign s t; pure .unit
  | .swap s t => do LL.swap s t; pure .unit
  | .merge lt s t => do LL.merge lt s t; pure .unit
  | .spliceAll _ pos t => do LL.spliceAll pos t; pure .unit
  | .spliceOne _ pos _ it => do LL.spliceOne pos it; pure .unit
  | .spliceRange _ pos _ f l => do LL.spliceRange pos f l; pure .unit
  | .sort lt s => do LL.sort lt s; pure .unit
  | .destroy s => do destroyList s; pure .unit

/-- The iterator to the first element of a (suffix of a) sequence, `e` (= `end()`) if it is empty. -/
def posOf (e : Ptr) : List (Ptr × V) → Ptr
  | [] => e
  | x :: _ => x.1

/-- `pos` is a valid position of the list `s`: an iterator to an element or `end()`. -/
def IsPos (w : W V) (s pos : Ptr) : Prop := ∃ X Y, Contents w s (X ++ Y) ∧ pos = posOf s Y

/-- The two lists have equal allocators. -/
def SameAlloc (w : W V) (s t : Ptr) : Prop := ∃ a, HasAlloc w s a ∧ HasAlloc w t a

/-- The list is empty or uses the default allocator (see C29 for other lists). -/
def Assignable (w : W V) (s : Ptr) : Prop := HasAlloc w s defaultAlloc ∨ Contents w s []

/-- Preconditions of calls.  Those of move assignment, `swap`, `merge` and `splice` are the usual requirement of equal allocators (C29
describes what happens otherwise); `splice` of a range within a list excludes a position in the range and (unlike
`std::list`, see C23) the end of the range. -/
def Valid (w : W V) : Call V → Prop
  | .create _ => True
  | .insert s pos _ => Alive w s ∧ IsPos w s pos
  | .insertN s pos _ _ => Alive w s ∧ IsPos w s pos
  | .insertRange s pos _ => Alive w s ∧ IsPos w s pos
  | .erase s pos => Alive w s ∧ ∃ X v Y, Contents w s (X ++ (pos, v) :: Y)
  | .eraseRange s f l => Alive w s ∧ ∃ X M Y, Contents w s (X ++ (M ++ Y)) ∧ f = posOf s (M ++ Y) ∧ l = posOf s Y
  | .pushBack s _ => Alive w s
  | .pushFront s _ => Alive w s
  | .popBack s => Alive w s ∧ ¬ Contents w s []
  | .popFront s => Alive w s ∧ ¬ Contents w s []
  | .clear s => Alive w s
  | .assignN s _ _ => Alive w s ∧ Assignable w s
  | .assignVals s _ => Alive w s ∧ Assignable w s
  | .assignRange s t f l => Alive w s ∧ Alive w t ∧ Assignable w s ∧ ∃ X M Y, Contents w t (X ++ (M ++ Y)) ∧
      f = posOf t (M ++ Y) ∧ l = posOf t Y ∧ (s = t → Y ≠ [])
  | .copy d s => Alive w d ∧ Alive w s ∧ Assignable w d ∧ d ≠ s
  | .move s => Alive w s
  | .moveAssign s t => Alive w s ∧ Alive w t ∧ SameAlloc w s t
  | .swap s t => Alive w s ∧ Alive w t ∧ SameAlloc w s t
  | .merge _ s t => Alive w s ∧ Alive w t ∧ SameAlloc w s t ∧ s ≠ t
  | .spliceAll s pos t => Alive w s ∧ Alive w t ∧ SameAlloc w s t ∧ s ≠ t ∧ IsPos w s pos
  | .spliceOne s pos t it => Alive w s ∧ Alive w t ∧ SameAlloc w s t ∧ IsPos w s pos ∧
      ∃ X v Y, Contents w t (X ++ (it, v) :: Y)
  | .spliceRange s pos t f l => Alive w s ∧ Alive w t ∧ SameAlloc w s t ∧
      ((s ≠ t ∧ IsPos w s pos ∧ ∃ X M Y, Contents w t (X ++ (M ++ Y)) ∧ f = posOf t (M ++ Y) ∧ l = posOf t Y) ∨
       (s = t ∧ ∃ X M Z Y, Contents w t (X ++ (M ++ (Z ++ Y))) ∧
          ((f = posOf t (M ++ (Z ++ Y)) ∧ l = posOf t (Z ++ Y) ∧ pos = posOf t Y ∧ (M ≠ [] → Z ≠ [])) ∨   -- move `M` later
           (pos = posOf t (M ++ (Z ++ Y)) ∧ f = posOf t (Z ++ Y) ∧ l = posOf t Y ∧ (Z ≠ [] → M ≠ [])))))    -- move `Z` earlier
  | .sort _ s => Alive w s ∧ ∃ L, Contents w s L ∧ L.length < 2 ^ 64
  | .destroy s => Alive w s

/-- A fresh error object is passed to every call. -/
def ready (w : W V) : W V := { w with err := none }

/-- The state before the program starts: no objects, no allocations. -/
def start (env : Env (LNode V)) : W V :=
  { heap := fun _ => none, env := env, nAlloc := 0, nCtor := 0, nCmp := 0, sp := 0, err := none }

/-- One entry of a history: the call, its result, and whether it reported an error. -/
structure Entry (V : Type) where
  call : Call V
  res : Res
  failed : Bool

/-- `Hist env h w`: `w` is reached from the start by the calls of `h` (latest first). -/
inductive Hist (env : Env (LNode V)) : List (Entry V) → W V → Prop
  | start : Hist env [] (start env)
  | call {h : List (Entry V)} {w w' : W V} {c : Call V} {r : Res} : Hist env h w → Valid w c →
      Runs (exec c) (ready w) r w' → Hist env (⟨c, r, w'.err.isSome⟩ :: h) w'

/-- Reachable program states. -/
def Reach (w : W V) : Prop := ∃ env h, Hist env h w

/-! ### The mathematical specification: lists as sequences of identified values -/

/-- For each live list object its allocator and its sequence of elements; an element is an identity (the iterator
denoting it) with a value. -/
abbrev AState (V : Type) := Ptr → Option (Nat × List (Ptr × V))

/-- `n` is the identity of no element. -/
def Unused (A : AState V) (n : Ptr) : Prop := ∀ s a L v, A s = some (a, L) → (n, v) ∉ L

/-- The elements `N` are new, with values `vs`. -/
def NewElems (A : AState V) (N : List (Ptr × V)) (vs : List V) : Prop :=
  N.map Prod.snd = vs ∧ (N.map Prod.fst).Nodup ∧ ∀ x ∈ N, Unused A x.1

/-- `X` is in non-descending order. -/
def InOrder (lt : V → V → Bool) (X : List (Ptr × V)) : Prop := X.Pairwise fun x y => lt y.2 x.2 = false

/-- Elements equivalent to `k`. -/
def equivTo (lt : V → V → Bool) (k : V) (x : Ptr × V) : Bool := !lt k x.2 && !lt x.2 k

/-- `Y` consists of the elements of `X`, in order and with equivalent elements in their relative order of `X`, provided
that `lt` is a strict weak ordering. -/
def StableSorted (lt : V → V → Bool) (X Y : List (Ptr × V)) : Prop :=
  Y.Perm X ∧ (SWO lt → InOrder lt Y ∧ ∀ k, Y.filter (equivTo lt k) = X.filter (equivTo lt k))

/-- The effect of `c` on the sequences, `failed` tells whether an error was reported and `r` is the result. -/
def Spec (A : AState V) (c : Call V) (r : Res) (failed : Bool) (A' : AState V) : Prop :=
  match c with
  | .create a => failed = false ∧ ∃ s, r = .obj s ∧ A s = none ∧ A' = upd A s (some (a, []))
  | .insert s pos v => ∃ a X Y, A s = some (a, X ++ Y) ∧ pos = posOf s Y ∧
      if failed then r = .pos s ∧ A' = A
      else ∃ n, Unused A n ∧ r = .pos n ∧ A' = upd A s (some (a, X ++ (n, v) :: Y))
  | .insertN s pos n v => ∃ a X Y k N, A s = some (a, X ++ Y) ∧ pos = posOf s Y ∧ k ≤ n ∧ (failed = true ↔ k < n) ∧
      NewElems A N (List.replicate k v) ∧ A' = upd A s (some (a, X ++ (N ++ Y)))
  | .insertRange s pos vs => ∃ a X Y k N, A s = some (a, X ++ Y) ∧ pos = posOf s Y ∧ k ≤ vs.length ∧
      (failed = true ↔ k < vs.length) ∧ NewElems A N (vs.take k).reverse ∧ A' = upd A s (some (a, X ++ (N ++ Y)))
  | .erase s pos => failed = false ∧ ∃ a X v Y, A s = some (a, X ++ (pos, v) :: Y) ∧ r = .pos (posOf s Y) ∧
      A' = upd A s (some (a, X ++ Y))
  | .eraseRange s f l => failed = false ∧ ∃ a X M Y, A s = some (a, X ++ (M ++ Y)) ∧ f = posOf s (M ++ Y) ∧ l = posOf s Y ∧
      r = .pos l ∧ A' = upd A s (some (a, X ++ Y))
  | .pushBack s v => ∃ a L, A s = some (a, L) ∧
      if failed then A' = A else ∃ n, Unused A n ∧ A' = upd A s (some (a, L ++ [(n, v)]))
  | .pushFront s v => ∃ a L, A s = some (a, L) ∧
      if failed then A' = A else ∃ n, Unused A n ∧ A' = upd A s (some (a, (n, v) :: L))
  | .popBack s => failed = false ∧ ∃ a L x, A s = some (a, L ++ [x]) ∧ A' = upd A s (some (a, L))
  | .popFront s => failed = false ∧ ∃ a L x, A s = some (a, x :: L) ∧ A' = upd A s (some (a, L))
  | .clear s => failed = false ∧ ∃ a L, A s = some (a, L) ∧ A' = upd A s (some (a, []))
  | .assignN s n v => ∃ a L k N, A s = some (a, L) ∧ k ≤ n ∧ (failed = true ↔ k < n) ∧
      NewElems A N (List.replicate k v) ∧ A' = upd A s (some (a, N))
  | .assignVals s vs => ∃ a L k N, A s = some (a, L) ∧ k ≤ vs.length ∧ (failed = true ↔ k < vs.length) ∧
      NewElems A N (vs.take k) ∧ A' = upd A s (some (a, N))
  | .assignRange s t f l => ∃ a L b X M Y k N, A s = some (a, L) ∧ A t = some (b, X ++ (M ++ Y)) ∧
      f = posOf t (M ++ Y) ∧ l = posOf t Y ∧ k ≤ M.length ∧ (failed = true ↔ k < M.length) ∧
      NewElems A N ((M.map Prod.snd).take k) ∧ A' = upd A s (some (a, N))
  | .copy d s => ∃ a L b M k N, A d = some (a, L) ∧ A s = some (b, M) ∧ k ≤ M.length ∧ (failed = true ↔ k < M.length) ∧
      NewElems A N ((M.map Prod.snd).take k) ∧ A' = upd A d (some (a, N))
  | .move s => failed = false ∧ ∃ d a L, r = .obj d ∧ A d = none ∧ A s = some (a, L) ∧
      A' = upd (upd A s (some (a, []))) d (some (a, L))
  | .moveAssign s t => failed = false ∧ ∃ a L M, A s = some (a, L) ∧ A t = some (a, M) ∧
      A' = if s = t then upd A s (some (a, [])) else upd (upd A s (some (a, M))) t (some (a, []))
  | .swap s t => failed = false ∧ ∃ a L M, A s = some (a, L) ∧ A t = some (a, M) ∧
      A' = upd (upd A s (some (a, M))) t (some (a, L))
  | .merge lt s t => failed = false ∧ ∃ a L M, A s = some (a, L) ∧ A t = some (a, M) ∧ s ≠ t ∧
      ∃ N, N.Perm (L ++ M) ∧ (SWO lt → InOrder lt L → InOrder lt M → StableSorted lt (L ++ M) N) ∧
        A' = upd (upd A s (some (a, N))) t (some (a, []))
  | .spliceAll s pos t => failed = false ∧ s ≠ t ∧ ∃ a X Y M, A s = some (a, X ++ Y) ∧ pos = posOf s Y ∧
      A t = some (a, M) ∧ A' = upd (upd A s (some (a, X ++ (M ++ Y)))) t (some (a, []))
  | .spliceOne s pos t it => failed = false ∧ ∃ a,
      (s ≠ t ∧ ∃ X Y C x D, A s = some (a, X ++ Y) ∧ pos = posOf s Y ∧ A t = some (a, C ++ x :: D) ∧ it = x.1 ∧
        A' = upd (upd A s (some (a, X ++ x :: Y))) t (some (a, C ++ D))) ∨
      (s = t ∧ ∃ X x Z Y, A s = some (a, X ++ x :: (Z ++ Y)) ∧ it = x.1 ∧ pos = posOf s Y ∧
        A' = upd A s (some (a, X ++ (Z ++ x :: Y)))) ∨
      (s = t ∧ ∃ X Z x Y, A s = some (a, X ++ (Z ++ x :: Y)) ∧ it = x.1 ∧ pos = posOf s (Z ++ x :: Y) ∧
        A' = upd A s (some (a, X ++ x :: (Z ++ Y))))
  | .spliceRange s pos t f l => failed = false ∧ ∃ a,
      (s ≠ t ∧ ∃ X Y C M D, A s = some (a, X ++ Y) ∧ pos = posOf s Y ∧ A t = some (a, C ++ (M ++ D)) ∧
        f = posOf t (M ++ D) ∧ l = posOf t D ∧ A' = upd (upd A s (some (a, X ++ (M ++ Y)))) t (some (a, C ++ D))) ∨
      (s = t ∧ ∃ X M Z Y, A s = some (a, X ++ (M ++ (Z ++ Y))) ∧ f = posOf s (M ++ (Z ++ Y)) ∧ l = posOf s (Z ++ Y) ∧
        pos = posOf s Y ∧ A' = upd A s (some (a, X ++ (Z ++ (M ++ Y))))) ∨
      (s = t ∧ ∃ X Z M Y, A s = some (a, X ++ (Z ++ (M ++ Y))) ∧ pos = posOf s (Z ++ (M ++ Y)) ∧
        f = posOf s (M ++ Y) ∧ l = posOf s Y ∧ A' = upd A s (some (a, X ++ (M ++ (Z ++ Y)))))
  | .sort lt s => failed = false ∧ ∃ a L L', A s = some (a, L) ∧ StableSorted lt L L' ∧ A' = upd A s (some (a, L'))
  | .destroy s => failed = false ∧ ∃ a L, A s = some (a, L) ∧ A' = upd A s none

/-- The mathematical lists after a history (latest entry first). -/
inductive SpecRun : List (Entry V) → AState V → Prop
  | start : SpecRun [] (fun _ => none)
  | call {h : List (Entry V)} {A A' : AState V} {c : Call V} {r : Res} {b : Bool} : SpecRun h A → Spec A c r b A' →
      SpecRun (⟨c, r, b⟩ :: h) A'

end Nestl.LC
