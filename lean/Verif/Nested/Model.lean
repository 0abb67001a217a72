import Verif.LinkedList.Client
set_option autoImplicit false
/-
Model of lists of lists: `nestl::list<nestl::list<V>>` (nestl/implementation/list.hpp instantiated with itself).  Elements
of the outer list are inner list objects.  An inner list is not copy constructible; a copy of it is constructed in two
phases (default construction, then `copy_nothrow`), nestl/class_operations.hpp:41-65 with list.hpp:622-634.

Simplifications: the nodes of outer lists and the inner lists with their nodes are kept in two memories (they have
different types).  The header of an inner list, in C++ embedded in the node of the outer list, is a separate object of the
inner memory; the node holds its address.  One error object is shared by both levels: that of the outer memory.
-/
namespace Nestl.NL
open Nestl.LL
variable {V α : Type}

/-- Program state: outer memory (element values are inner list objects) and inner memory. -/
structure NS (V : Type) where
  o : W Ptr
  i : W V

/-- A step of the outer list. -/
def onO (m : M (W Ptr) α) : M (NS V) α := fun s =>
  match m s.o with
  | some (.ok (a, o')) => some (.ok (a, { s with o := o' }))
  | some (.error f) => some (.error f)
  | none => none

/-- Replace the error object. -/
def setErr {N : Type} (w : World N) (e : Option Err) : World N := { w with err := e }

/-- A step of an inner list; the error object is passed on. -/
def onI (m : M (W V) α) : M (NS V) α := fun s =>
  match m (setErr s.i s.o.err) with
  | some (.ok (a, i')) => some (.ok (a, ⟨setErr s.o i'.err, i'⟩))
  | some (.error f) => some (.error f)
  | none => none

/-- `if (err)` -/
def failed : M (NS V) Bool := onO hasErr

/-- The element in the node `p`. -/
def elem (p : Ptr) : M (W Ptr) Ptr := do
  match (← rd p).val with
  | some q => pure q
  | none => fault .rawRead

/-- The lifetime of the element `q` in the storage of node `p` begins. -/
def beginVal (p q : Ptr) : M (W Ptr) Unit := do
  match (← rd p).val with
  | some _ => fault .overwriteLive
  | none => modCell p fun c => { c with val := some q }

/-- `destroy_value` of a node holding a list: list.hpp:167-171 with detail/destroy.hpp:17-21, calls `~list()`
(list.hpp:686-690) of the element. -/
def destroyElem (p : Ptr) : M (NS V) Unit := do
  let q ← onO (elem p)
  onI (destroyList q)
  onO (destroyVal p)

/-- Construction of a copy of the list `t` in node `p`: class_operations.hpp:41-65 (default constructor, guard, then
`two_phase_initializator`) with list.hpp:622-634. -/
def copyElem (p t : Ptr) : M (NS V) Unit := do
  let q ← onI (newList defaultAlloc)
  onO (beginVal p q)
  onI (copyNothrow q t)
  if (← failed) then destroyElem p      -- ~guard
  else pure ()                          -- guard.release()

/-- Move construction of an element from the list `t` in node `p`: class_operations.hpp:32-37 with list.hpp:677-684. -/
def moveElem (p t : Ptr) : M (NS V) Unit := do
  let q ← onI (moveCtor t)
  onO (beginVal p q)

/-- Construction of an element from `t`, which is an lvalue (`copy`) or an rvalue. -/
def initElem (copy : Bool) (p t : Ptr) : M (NS V) Unit := if copy then copyElem p t else moveElem p t

/-- Allocation of a node: list.hpp:1275. -/
def allocNode (s : Ptr) : M (W Ptr) Ptr := do
  let a := (← rd s).owner
  allocCell fun junk => { junk with val := none, owner := a }

/-- `create_node`: list.hpp:1270-1290. -/
def createNode (copy : Bool) (s t : Ptr) : M (NS V) Ptr := do
  let n ← onO (allocNode s)
  if (← failed) then pure .null else do
  initElem copy n t
  if (← failed) then
    onO (putNode s n)      -- ~allocGuard
    pure .null
  else pure n              -- allocGuard.release()

/-- Linking the new node: list.hpp:962-967. -/
def linkNode (n pos : Ptr) : M (W Ptr) Ptr := do
  initEmpty n
  checkNode pos
  inject n pos
  checkNode n
  pure n

/-- `emplace_nothrow(err, pos, t)`: list.hpp:951-968; `insert_nothrow(err, pos, t)`: list.hpp:901-915. -/
def emplace (copy : Bool) (s pos t : Ptr) : M (NS V) Ptr := do
  let n ← createNode copy s t
  if (← failed) then onO (end_ s) else onO (linkNode n pos)

/-- Unlinking a node: list.hpp:974-977. -/
def unlink (pos : Ptr) : M (W Ptr) Ptr := do
  checkNode pos
  let ret ← getNext pos
  checkNode ret
  removeNode pos
  pure ret

/-- `erase(pos)`: list.hpp:970-983. -/
def erase (s pos : Ptr) : M (NS V) Ptr := do
  let ret ← onO (unlink pos)
  destroyElem pos
  onO (putNode s pos)
  pure ret

/-- Loop of `destroy_list_content`: list.hpp:1243-1252. -/
def destroyLoop (s cur : Ptr) : M (NS V) Unit := do
  if cur ≠ s then
    let nx ← onO (getNext cur)
    destroyElem cur
    onO (putNode s cur)
    destroyLoop s nx
  else pure ()
partial_fixpoint

/-- `destroy_list_content`: list.hpp:1239-1253. -/
def destroyContent (s : Ptr) : M (NS V) Unit := do destroyLoop s (← onO (getNext s))

/-- `~list()`: list.hpp:686-690; then the object goes out of scope. -/
def destroy (s : Ptr) : M (NS V) Unit := do
  destroyContent s
  onO (dropObj s)

/-- `clear()`: list.hpp:893-899. -/
def clear (s : Ptr) : M (NS V) Unit := do
  destroyContent s
  onO (initEmpty s)

/-- `push_back_nothrow(err, t)`: list.hpp:997-1019. -/
def pushBack (copy : Bool) (s t : Ptr) : M (NS V) Unit := do
  let _ ← emplace copy s (← onO (end_ s)) t
  pure ()

/-- `push_front_nothrow(err, t)`: list.hpp:1028-1050. -/
def pushFront (copy : Bool) (s t : Ptr) : M (NS V) Unit := do
  let _ ← emplace copy s (← onO (begin_ s)) t
  pure ()

/-- `pop_back()`: list.hpp:1021-1026. -/
def popBack (s : Ptr) : M (NS V) Unit := do
  let p ← onO (getPrev s)
  onO (checkNode p)
  let _ ← erase s p
  pure ()

/-- `pop_front()`: list.hpp:1052-1057. -/
def popFront (s : Ptr) : M (NS V) Unit := do
  let _ ← erase s (← onO (begin_ s))
  pure ()

/-- `operator=(list&&)` and `move_assign`: list.hpp:698-704, 1262-1268 (see `LL.moveAssign`). -/
def moveAssign (s other : Ptr) : M (NS V) Unit := do
  let tmp ← onO (moveCtor s)
  onO (swap s other)
  destroy tmp

/-- The loop of `assign_nothrow(err, first, last)`: list.hpp:741-750, for list iterators. -/
def assignLoop (s first last : Ptr) : M (NS V) Unit := do
  if (← onO (itEq first last)) then pure ()
  else do
    pushBack true s (← onO (deref first))
    if (← failed) then pure () else assignLoop s (← onO (incr first)) last
partial_fixpoint

/-- `assign_nothrow(err, first, last)`: list.hpp:734-751, for list iterators. -/
def assignIt (s first last : Ptr) : M (NS V) Unit := do
  let tmp ← onO (newList defaultAlloc)
  onO (swap tmp s)
  assignLoop s first last
  destroy tmp

/-- `copy_nothrow(err, other)`: list.hpp:706-712. -/
def copyNothrow (s other : Ptr) : M (NS V) Unit := do
  let first ← onO (begin_ other)
  let last ← onO (end_ other)
  assignIt s first last

end Nestl.NL
