import Verif.RBTree.ModelExtra
set_option autoImplicit false
/-
The client view of `nestl::set` (nestl/implementation/set.hpp): client programs, API calls, histories of calls, and
the specification used by the property theorems in `Verif/Set/Props.lean`.  Nothing here mentions the shape of the
tree: the state of a set is observed by iterating over it.
-/
namespace Nestl.Set
open Nestl.RB
variable {K : Type}

/-- Client loop `for (it = first; it != last; ++it) out.push_back({it, *it});` using the iterator operations of
rbt.hpp:177-245 (`operator*`, `operator++`, `operator!=`). -/
def walkFrom (it last : Ptr) : M (W K) (List (Ptr × K)) := do
  if it = last then pure [] else
    let k ← keyOf it
    let rest ← walkFrom (← increment it) last
    pure ((it, k) :: rest)
partial_fixpoint

/-- Visit a set from `begin()` to `end()`: set.hpp:196-236. -/
def walk (s : Ptr) : M (W K) (List (Ptr × K)) := do
  walkFrom (← begin_ s) (← end_ s)

/-- Client loop `while (it != first) { --it; out.push_back({it, *it}); }` (also what iterating from `rbegin()` to
`rend()` does, set.hpp:238-278). -/
def walkBackFrom (it first : Ptr) : M (W K) (List (Ptr × K)) := do
  if it = first then pure [] else
    let p ← decrement it
    let k ← keyOf p
    let rest ← walkBackFrom p first
    pure ((p, k) :: rest)
partial_fixpoint

/-- Visit a set backwards, from `end()` to `begin()`. -/
def walkBack (s : Ptr) : M (W K) (List (Ptr × K)) := do
  walkBackFrom (← end_ s) (← begin_ s)

/-- The contents of the set object `s` as a client sees them: the positions and keys visited by iterating. -/
def Contents (w : W K) (s : Ptr) (L : List (Ptr × K)) : Prop := Runs (walk s) w L w

/-- `s` is a set object within its lifetime. -/
def Alive (w : W K) (s : Ptr) : Prop := ∃ i, s = .stk i ∧ w.heap s ≠ none

/-- Calls a client can make. -/
inductive Call (K : Type)
  | create (alloc : Nat)                 -- `set s(alloc);`
  | insert (s : Ptr) (k : K)             -- `s.insert_nothrow(err, k)`
  | eraseKey (s : Ptr) (k : K)           -- `s.erase(k)`
  | eraseAt (s it : Ptr)                 -- `k = *it; s.erase(it)`
  | eraseRange (s first last : Ptr)      -- `for (k : [first, last)) record(k); erase(first, last)` of the tree
  | clear (s : Ptr)                      -- `s.clear()`
  | find (s : Ptr) (k : K)               -- `s.find(k)`
  | copy (prop : Bool) (d s : Ptr)       -- `d.copy_nothrow(err, s)`
  | move (s : Ptr)                       -- `set d(std::move(s));`
  | destroy (s : Ptr)                    -- end of the lifetime of `s`

/-- Results of calls. -/
inductive Res (K : Type)
  | unit
  | obj (s : Ptr)                        -- a new set object
  | pos (it : Ptr)                       -- an iterator
  | ins (it : Ptr) (b : Bool)            -- `pair<iterator, bool>`
  | num (n : Nat)
  | erased (next : Ptr) (k : K)          -- the returned iterator and the key that was erased
  | erasedRange (next : Ptr) (ks : List K)

/-- The program executed by a call. -/
def exec (lt : K → K → Bool) : Call K → M (W K) (Res K)
  | .create a => do pure (.obj (← newTree a))
  | .insert s k => do
      let r ← insertUnique lt s k
      pure (.ins r.1 r.2)
  | .eraseKey s k => do pure (.num (← eraseKey lt s k))
  | .eraseAt s it => do
      let k ← keyOf it
      let r ← eraseIter s it
      pure (.erased r k)
  | .eraseRange s f l => do
      let L ← walkFrom f l
      let r ← eraseRange s f l
      pure (.erasedRange r (L.map Prod.snd))
  | .clear s => do RB.clear s; pure .unit
  | .find s k => do pure (.pos (← find lt s k))
  | .copy prop d s => do copyNothrow prop d s; pure .unit
  | .move s => do pure (.obj (← moveCtor s))
  | .destroy s => do destroyTree s; pure .unit

/-- The iterator to the first element of a (suffix of a) sequence, `e` (= `end()`) if it is empty. -/
def posOf (e : Ptr) : List (Ptr × K) → Ptr
  | [] => e
  | x :: _ => x.1

/-- Preconditions of calls: the objects are alive, iterators are dereferenceable iterators of that set, ranges are
ranges of that set. -/
def Valid (w : W K) : Call K → Prop
  | .create _ => True
  | .insert s _ => Alive w s
  | .eraseKey s _ => Alive w s
  | .eraseAt s it => Alive w s ∧ ∃ L k, Contents w s L ∧ (it, k) ∈ L
  | .eraseRange s f l => Alive w s ∧ ∃ A M B, Contents w s (A ++ (M ++ B)) ∧
      f = posOf s (M ++ B) ∧ l = posOf s B
  | .clear s => Alive w s
  | .find s _ => Alive w s
  | .copy _ d s => Alive w d ∧ Alive w s
  | .move s => Alive w s
  | .destroy s => Alive w s

/-- A fresh error object is passed to every call. -/
def ready (w : W K) : W K := { w with err := none }

/-- The state before the program starts: no objects, no allocations. -/
def start (env : Env (TNode K)) : W K :=
  { heap := fun _ => none, env := env, nAlloc := 0, nCtor := 0, nCmp := 0, sp := 0, err := none }

/-- One entry of a history: the call, its result, and whether it reported an error. -/
structure Entry (K : Type) where
  call : Call K
  res : Res K
  failed : Bool

/-- `Hist lt env h w`: `w` is reached from the start by the calls of `h` (latest first). -/
inductive Hist (lt : K → K → Bool) (env : Env (TNode K)) : List (Entry K) → W K → Prop
  | start : Hist lt env [] (start env)
  | call {h : List (Entry K)} {w w' : W K} {c : Call K} {r : Res K} : Hist lt env h w → Valid w c →
      Runs (exec lt c) (ready w) r w' → Hist lt env (⟨c, r, w'.err.isSome⟩ :: h) w'

/-- Reachable program states. -/
def Reach (lt : K → K → Bool) (w : W K) : Prop := ∃ env h, Hist lt env h w

/-! ### The mathematical specification -/

/-- Equivalence of keys induced by the order. -/
def Equiv (lt : K → K → Bool) (a b : K) : Prop := lt a b = false ∧ lt b a = false

/-- Function update. -/
def put {α : Type} (f : Ptr → α) (s : Ptr) (v : α) : Ptr → α := fun x => if x = s then v else f x

/-- Effect of one call on a family of mathematical sets of keys. -/
def absStep (lt : K → K → Bool) (A : Ptr → K → Prop) (e : Entry K) : Ptr → K → Prop :=
  match e.call, e.res with
  | .create _, .obj s => put A s (fun _ => False)
  | .insert s k, _ =>
      if e.failed then A else put A s (fun x => A s x ∨ (x = k ∧ ∀ y, A s y → ¬ Equiv lt y k))
  | .eraseKey s k, _ => put A s (fun x => A s x ∧ ¬ Equiv lt x k)
  | .eraseAt s _, .erased _ k => put A s (fun x => A s x ∧ x ≠ k)
  | .eraseRange s _ _, .erasedRange _ ks => put A s (fun x => A s x ∧ x ∉ ks)
  | .clear s, _ => put A s (fun _ => False)
  | .copy _ d s, _ => if d = s then A else put A d (fun x => A s x ∧ e.failed = false)
  | .move s, .obj d => put (put A d (A s)) s (fun _ => False)
  | _, _ => A

/-- The family of mathematical sets after a history. -/
def absRun (lt : K → K → Bool) : List (Entry K) → Ptr → K → Prop
  | [] => fun _ _ => False
  | e :: h => absStep lt (absRun lt h) e

end Nestl.Set
