import Verif.ListOf.Model
set_option autoImplicit false
/-
The client view of lists of objects (nestl/implementation/list.hpp): API calls, their preconditions, reachable states, and what a
client observes.  The specification of the calls is the one of lists of values (`LC.Spec`, Verif/LinkedList/Client.lean).
-/
namespace Nestl.LO
open Nestl.VO (Elem ElemOps)
open Nestl.NO (NS onO Compares)
variable {S A X : Type}

/-- A `const T&` argument: an object (of the client or an element of a list), or a temporary `T()`. -/
inductive CArg
  | obj (t : Ptr)
  | fresh

/-- Calls a client can make. -/
inductive Call (S : Type)
  | create (alloc : Nat)                                -- `list s(alloc);`
  | insert (s pos : Ptr) (a : CArg)                     -- `s.insert_nothrow(err, pos, a)`; `s.emplace_nothrow(err, pos)` for `T()`
  | insertMove (s pos t : Ptr)                          -- `s.insert_nothrow(err, pos, std::move(t))`
  | insertN (s pos : Ptr) (n : Nat) (a : CArg)          -- `s.insert_nothrow(err, pos, n, a)`
  | insertRange (s pos : Ptr) (ts : List Ptr)           -- `s.insert_nothrow(err, pos, first, last)`, a range of objects
  | erase (s pos : Ptr)                                 -- `s.erase(pos)`
  | eraseRange (s first last : Ptr)                     -- `s.erase(first, last)`
  | pushBack (s : Ptr) (a : CArg)                       -- `s.push_back_nothrow(err, a)`; `s.emplace_back_nothrow(err)` for `T()`
  | pushBackMove (s t : Ptr)                            -- `s.push_back_nothrow(err, std::move(t))`
  | pushFront (s : Ptr) (a : CArg)                      -- `s.push_front_nothrow(err, a)`; `s.emplace_front_nothrow(err)` for `T()`
  | pushFrontMove (s t : Ptr)                           -- `s.push_front_nothrow(err, std::move(t))`
  | popBack (s : Ptr)                                   -- `s.pop_back()`
  | popFront (s : Ptr)                                  -- `s.pop_front()`
  | clear (s : Ptr)                                     -- `s.clear()`
  | assignN (s : Ptr) (n : Nat) (a : CArg)              -- `s.assign_nothrow(err, n, a)`
  | assignObjs (s : Ptr) (ts : List Ptr)                -- `s.assign_nothrow(err, first, last)`, a range of objects
  | assignRange (s t first last : Ptr)                  -- `s.assign_nothrow(err, first, last)`, a range of list `t`
  | copy (d s : Ptr)                                    -- `d.copy_nothrow(err, s)`
  | move (s : Ptr)                                      -- `list d(std::move(s));`
  | moveAssign (s t : Ptr)                              -- `s = std::move(t)`
  | swap (s t : Ptr)                                    -- `s.swap(t)`
  | merge (less : Ptr → Ptr → M S Bool) (s t : Ptr)     -- `s.merge(t, less)`
  | spliceAll (s pos t : Ptr)                           -- `s.splice(pos, t)`
  | spliceOne (s pos t it : Ptr)                        -- `s.splice(pos, t, it)`
  | spliceRange (s pos t first last : Ptr)              -- `s.splice(pos, t, first, last)`
  | sort (less : Ptr → Ptr → M S Bool) (s : Ptr)        -- `s.sort(less)`
  | destroy (s : Ptr)                                   -- end of the lifetime of `s`

/-- The constructor argument of an expression. -/
def CArg.arg : CArg → Arg
  | .obj t => .obj t
  | .fresh => .none

/-- The program executed by a call. -/
def exec (E : ElemOps S) : Call S → M (ST S) LC.Res
  | .create a => do pure (.obj (← onO (LL.newList a)))
  | .insert s pos a => do pure (.pos (← emplace E s pos a.arg))
  | .insertMove s pos t => do pure (.pos (← emplace E s pos (.mov t)))
  | .insertN s pos n a => do LO.insertN E s pos a.arg n; pure .unit
  | .insertRange s pos ts => do LO.insertRange E s pos ts; pure .unit
  | .erase s pos => do pure (.pos (← LO.erase E s pos))
  | .eraseRange s f l => do pure (.pos (← LO.eraseRange E s f l))
  | .pushBack s a => do LO.pushBack E s a.arg; pure .unit
  | .pushBackMove s t => do LO.pushBack E s (.mov t); pure .unit
  | .pushFront s a => do LO.pushFront E s a.arg; pure .unit
  | .pushFrontMove s t => do LO.pushFront E s (.mov t); pure .unit
  | .popBack s => do LO.popBack E s; pure .unit
  | .popFront s => do LO.popFront E s; pure .unit
  | .clear s => do LO.clear E s; pure .unit
  | .assignN s n a => do LO.assignN E s n a.arg; pure .unit
  | .assignObjs s ts => do assignVals E s ts; pure .unit
  | .assignRange s _ f l => do assignIt E s f l; pure .unit
  | .copy d s => do copyNothrow E d s; pure .unit
  | .move s => do pure (.obj (← onO (LL.moveCtor s)))
  | .moveAssign s t => do LO.moveAssign E s t; pure .unit
  | .swap s t => do onO (LL.swap s t); pure .unit
  | .merge less s t => do LO.merge less s t; pure .unit
  | .spliceAll _ pos t => do onO (LL.spliceAll pos t); pure .unit
  | .spliceOne _ pos _ it => do onO (LL.spliceOne pos it); pure .unit
  | .spliceRange _ pos _ f l => do onO (LL.spliceRange pos f l); pure .unit
  | .sort less s => do LO.sort E less s; pure .unit
  | .destroy s => do destroyList E s; pure .unit

/-- The list `s` consists of the given positions and objects. -/
def Objs (st : ST S) (s : Ptr) (qs : List (Ptr × Ptr)) : Prop := LC.Contents st.o s qs

/-- `q` is an element of a list. -/
def IsElem (st : ST S) (q : Ptr) : Prop := ∃ s qs p, LC.Alive st.o s ∧ Objs st s qs ∧ (p, q) ∈ qs

/-- The same call on lists whose elements are addresses; used for the preconditions that only concern the lists. -/
def CArg.addr : CArg → Ptr
  | .obj t => t
  | .fresh => .null

/-- See `CArg.addr`. -/
def Call.addr : Call S → LC.Call Ptr
  | .create a => .create a
  | .insert s pos a => .insert s pos a.addr
  | .insertMove s pos t => .insert s pos t
  | .insertN s pos n a => .insertN s pos n a.addr
  | .insertRange s pos ts => .insertRange s pos ts
  | .erase s pos => .erase s pos
  | .eraseRange s f l => .eraseRange s f l
  | .pushBack s a => .pushBack s a.addr
  | .pushBackMove s t => .pushBack s t
  | .pushFront s a => .pushFront s a.addr
  | .pushFrontMove s t => .pushFront s t
  | .popBack s => .popBack s
  | .popFront s => .popFront s
  | .clear s => .clear s
  | .assignN s n a => .assignN s n a.addr
  | .assignObjs s ts => .assignVals s ts
  | .assignRange s t f l => .assignRange s t f l
  | .copy d s => .copy d s
  | .move s => .move s
  | .moveAssign s t => .moveAssign s t
  | .swap s t => .swap s t
  | .merge _ s t => .merge (fun _ _ => false) s t
  | .spliceAll s pos t => .spliceAll s pos t
  | .spliceOne s pos t it => .spliceOne s pos t it
  | .spliceRange s pos t f l => .spliceRange s pos t f l
  | .sort _ s => .sort (fun _ _ => false) s
  | .destroy s => .destroy s

/-- The object an argument refers to. -/
def CArg.uses : CArg → Ptr → Prop
  | .obj t, q => q = t
  | .fresh, _ => False

/-- The objects a call copies. -/
def Call.copies : Call S → Ptr → Prop
  | .insert _ _ a, q | .insertN _ _ _ a, q | .pushBack _ a, q | .pushFront _ a, q | .assignN _ _ a, q => a.uses q
  | .insertRange _ _ ts, q | .assignObjs _ ts, q => q ∈ ts
  | _, _ => False

/-- The object a call moves into a list. -/
def Call.moves : Call S → Ptr → Prop
  | .insertMove _ _ t, q | .pushBackMove _ t, q | .pushFrontMove _ t, q => q = t
  | _, _ => False

/-- The comparator of a call. -/
def Call.compares : Call S → (Ptr → Ptr → M S Bool) → Prop
  | .merge less _ _, f | .sort less _, f => f = less
  | _, _ => False

/-- Preconditions of calls: those of `LC.Valid`; objects that are copied exist; objects that are moved exist and are not elements
of lists; comparators only look at objects and compute a function of their values. -/
def Valid (E : Elem S A X) (s : ST S) (c : Call S) : Prop :=
  LC.Valid s.o c.addr ∧ (∀ q, c.copies q → E.val s.i q ≠ none) ∧ (∀ q, c.moves q → E.val s.i q ≠ none ∧ ¬ IsElem s q) ∧
    ∀ f, c.compares f → ∃ lt, Compares E f lt

/-- The value of an argument; `f` are the values of the objects. -/
def CArg.Means (blank : A) (f : Ptr → Option A) : CArg → A → Prop
  | .obj t, x => f t = some x
  | .fresh, x => x = blank

/-- The call on lists of values that a call on lists of objects stands for. -/
def Call.Means (E : Elem S A X) (f : Ptr → Option A) : Call S → LC.Call A → Prop
  | .create a, c => c = .create a
  | .insert s pos a, c => ∃ x, a.Means E.blank f x ∧ c = .insert s pos x
  | .insertMove s pos t, c => ∃ x, f t = some x ∧ c = .insert s pos x
  | .insertN s pos n a, c => ∃ x, a.Means E.blank f x ∧ c = .insertN s pos n x
  | .insertRange s pos ts, c => ∃ xs : List A, ts.map f = xs.map some ∧ c = .insertRange s pos xs
  | .erase s pos, c => c = .erase s pos
  | .eraseRange s f l, c => c = .eraseRange s f l
  | .pushBack s a, c => ∃ x, a.Means E.blank f x ∧ c = .pushBack s x
  | .pushBackMove s t, c => ∃ x, f t = some x ∧ c = .pushBack s x
  | .pushFront s a, c => ∃ x, a.Means E.blank f x ∧ c = .pushFront s x
  | .pushFrontMove s t, c => ∃ x, f t = some x ∧ c = .pushFront s x
  | .popBack s, c => c = .popBack s
  | .popFront s, c => c = .popFront s
  | .clear s, c => c = .clear s
  | .assignN s n a, c => ∃ x, a.Means E.blank f x ∧ c = .assignN s n x
  | .assignObjs s ts, c => ∃ xs : List A, ts.map f = xs.map some ∧ c = .assignVals s xs
  | .assignRange s t f l, c => c = .assignRange s t f l
  | .copy d s, c => c = .copy d s
  | .move s, c => c = .move s
  | .moveAssign s t, c => c = .moveAssign s t
  | .swap s t, c => c = .swap s t
  | .merge less s t, c => ∃ lt, Compares E less lt ∧ c = .merge lt s t
  | .spliceAll s pos t, c => c = .spliceAll s pos t
  | .spliceOne s pos t it, c => c = .spliceOne s pos t it
  | .spliceRange s pos t f l, c => c = .spliceRange s pos t f l
  | .sort less s, c => ∃ lt, Compares E less lt ∧ c = .sort lt s
  | .destroy s, c => c = .destroy s

/-- A fresh error object is passed to every call. -/
def ready (s : ST S) : ST S := ⟨LC.ready s.o, s.i⟩

/-- Reachable states: after calls on lists and, in between, anything that the client does with objects of the element class (its
own or elements of lists), as long as the elements of the lists are not destroyed. -/
inductive Reach (E : Elem S A X) : ST S → Prop
  | start {env : Env (LL.LNode Ptr)} {i : S} : E.inv i → Reach E ⟨LC.start env, i⟩
  | call {s s' : ST S} {c : Call S} {r : LC.Res} : Reach E s → Valid E s c → Runs (exec E.toElemOps c) (ready s) r s' → Reach E s'
  | client {s : ST S} {i : S} : Reach E s → E.inv i → (∀ q, IsElem s q → E.val i q ≠ none) → Reach E ⟨s.o, i⟩

/-- The positions and the values of the elements of the list `s` are `L`. -/
def Values (E : Elem S A X) (st : ST S) (s : Ptr) (L : List (Ptr × A)) : Prop :=
  ∃ qs, Objs st s qs ∧ (qs.map fun x => (x.1, E.val st.i x.2)) = L.map fun x => (x.1, some x.2)

/-- The lists of the state are `B`: their allocators, and the positions and values of their elements. -/
def Shows (E : Elem S A X) (st : ST S) (B : LC.AState A) : Prop :=
  (∀ s, LC.Alive st.o s ↔ B s ≠ none) ∧ ∀ s al L, B s = some (al, L) → LC.HasAlloc st.o s al ∧ Values E st s L

/-- The value of an object that does not belong to a list after a call: a moved-from object is empty. -/
def Call.After (blank : A) (c : Call S) (failed : Bool) (q : Ptr) (x y : A) : Prop :=
  (c.moves q ∧ failed = false → y = blank) ∧ (¬ (c.moves q ∧ failed = false) → y = x)

end Nestl.LO
