import Verif.LinkedList.Client
import Verif.NodeOf.Elems
set_option autoImplicit false
/-
Lists (nestl/implementation/list.hpp) whose elements are objects of any class (`VO.Elem`).  A node holds the address of its
element.  Functions that only follow and change links are those of Verif/LinkedList/Model.lean.
-/
namespace Nestl.LO
open Nestl.VO (ElemOps)
open Nestl.NO (NS onO onI failed construct destroyElem compare)
open Nestl.LL (LNode)

/-- The value in a `list_node<T>`: list.hpp:157-199. -/
instance : NO.Cell LNode where
  get c := c.val
  put x c := { c with val := x }
  abs f c := { next := c.next, prev := c.prev, val := c.val.bind f, owner := c.owner }
  get_put _ _ := rfl
  get_abs _ _ := rfl
  abs_put _ _ _ := rfl
  abs_congr f g c h := by
    rcases e : c.val with _ | q
    · rfl
    · simp only [Option.bind_some, h q e]

/-- Lists of objects, and the objects. -/
abbrev ST (S : Type) := NS LNode S

variable {S : Type}

/-- Arguments of constructors. -/
abbrev Arg := NO.Arg

/-! ### Destruction -/

/-- `destroy_value`: list.hpp:167-171 with nestl/detail/destroy.hpp:17-21. -/
def destroyVal (E : ElemOps S) (p : Ptr) : M (ST S) Unit := destroyElem E p

/-- Loop of `destroy_list_content`: list.hpp:1243-1252. -/
def destroyLoop (E : ElemOps S) (s cur : Ptr) : M (ST S) Unit := do
  if cur ≠ s then
    let nx ← onO (LL.getNext cur)
    destroyVal E cur
    onO (LL.putNode s cur)
    destroyLoop E s nx
  else pure ()
partial_fixpoint

/-- `destroy_list_content`: list.hpp:1239-1253. -/
def destroyContent (E : ElemOps S) (s : Ptr) : M (ST S) Unit := do destroyLoop E s (← onO (LL.getNext s))

/-- `~list()`: list.hpp:686-690; then the object goes out of scope. -/
def destroyList (E : ElemOps S) (s : Ptr) : M (ST S) Unit := do
  destroyContent E s
  onO (dropObj s)

/-- `clear()`: list.hpp:893-899. -/
def clear (E : ElemOps S) (s : Ptr) : M (ST S) Unit := do
  destroyContent E s
  onO (LL.initEmpty s)

/-- `operator=(list&&)` and `move_assign`: list.hpp:698-704, 1262-1268 (see `LL.moveAssign`). -/
def moveAssign (E : ElemOps S) (s other : Ptr) : M (ST S) Unit := do
  let tmp ← onO (LL.moveCtor s)
  onO (LL.swap s other)
  destroyList E tmp

/-! ### Modifiers -/

/-- `create_node`: list.hpp:1270-1290 with the deallocation guard (destroy.hpp:62-89). -/
def createNode (E : ElemOps S) (s : Ptr) (a : Arg) : M (ST S) Ptr := do
  let al ← onO (LC.getAlloc s)
  let n ← onO (allocCell fun junk => { junk with val := none, owner := al })
  if (← failed) then pure .null else do
  construct E n a
  if (← failed) then
    onO (LL.putNode s n)   -- ~allocGuard
    pure .null
  else pure n              -- allocGuard.release()

/-- `emplace_nothrow(err, pos, args...)`: list.hpp:951-968; `insert_nothrow(err, pos, value)`: list.hpp:901-915. -/
def emplace (E : ElemOps S) (s pos : Ptr) (a : Arg) : M (ST S) Ptr := do
  let n ← createNode E s a
  if (← failed) then onO (LL.end_ s) else do
  onO (LL.initEmpty n)
  onO (LL.checkNode pos)
  onO (LL.inject n pos)
  onO (LL.checkNode n)
  pure n

/-- `insert_nothrow(err, pos, count, value)`: list.hpp:917-932. -/
def insertN (E : ElemOps S) (s pos : Ptr) (a : Arg) : Nat → M (ST S) Unit
  | 0 => pure ()
  | n + 1 => do
    let pos ← emplace E s pos a
    if (← failed) then pure () else insertN E s pos a n

/-- `insert_nothrow(err, pos, first, last)`: list.hpp:934-949; the range is given by the objects it yields. -/
def insertRange (E : ElemOps S) (s pos : Ptr) : List Ptr → M (ST S) Unit
  | [] => pure ()
  | t :: ts => do
    let pos ← emplace E s pos (.obj t)
    if (← failed) then pure () else insertRange E s pos ts

/-- `erase(pos)`: list.hpp:970-983. -/
def erase (E : ElemOps S) (s pos : Ptr) : M (ST S) Ptr := do
  onO (LL.checkNode pos)
  let ret ← onO (LL.getNext pos)
  onO (LL.checkNode ret)
  onO (LL.removeNode pos)
  destroyVal E pos
  onO (LL.putNode s pos)
  pure ret

/-- `erase(first, last)`: list.hpp:985-994 (see `LL.eraseRange`). -/
def eraseRange (E : ElemOps S) (s first last : Ptr) : M (ST S) Ptr := do
  if (← onO (LL.itEq first last)) then pure last
  else do eraseRange E s (← erase E s first) last
partial_fixpoint

/-- `push_back_nothrow` / `emplace_back_nothrow`: list.hpp:997-1019. -/
def pushBack (E : ElemOps S) (s : Ptr) (a : Arg) : M (ST S) Unit := do
  let _ ← emplace E s (← onO (LL.end_ s)) a
  pure ()

/-- `push_front_nothrow` / `emplace_front_nothrow`: list.hpp:1028-1050. -/
def pushFront (E : ElemOps S) (s : Ptr) (a : Arg) : M (ST S) Unit := do
  let _ ← emplace E s (← onO (LL.begin_ s)) a
  pure ()

/-- `pop_back()`: list.hpp:1021-1026. -/
def popBack (E : ElemOps S) (s : Ptr) : M (ST S) Unit := do
  let p ← onO (LL.getPrev s)
  onO (LL.checkNode p)
  let _ ← erase E s p
  pure ()

/-- `pop_front()`: list.hpp:1052-1057. -/
def popFront (E : ElemOps S) (s : Ptr) : M (ST S) Unit := do
  let _ ← erase E s (← onO (LL.begin_ s))
  pure ()

/-- The loop of `assign_nothrow(err, n, val)`: list.hpp:721-730. -/
def assignLoop (E : ElemOps S) (s : Ptr) (a : Arg) : Nat → M (ST S) Unit
  | 0 => pure ()
  | n + 1 => do
    pushBack E s a
    if (← failed) then pure () else assignLoop E s a n

/-- `assign_nothrow(err, n, val)`: list.hpp:714-731. -/
def assignN (E : ElemOps S) (s : Ptr) (n : Nat) (a : Arg) : M (ST S) Unit := do
  let tmp ← onO (LL.newList LL.defaultAlloc)
  onO (LL.swap tmp s)
  assignLoop E s a n
  destroyList E tmp

/-- The loop of `assign_nothrow(err, first, last)`: list.hpp:741-750, for a range that is given by the objects it yields. -/
def assignValsLoop (E : ElemOps S) (s : Ptr) : List Ptr → M (ST S) Unit
  | [] => pure ()
  | t :: ts => do
    pushBack E s (.obj t)
    if (← failed) then pure () else assignValsLoop E s ts

/-- `assign_nothrow(err, first, last)`: list.hpp:734-751, for a range that is given by the objects it yields. -/
def assignVals (E : ElemOps S) (s : Ptr) (ts : List Ptr) : M (ST S) Unit := do
  let tmp ← onO (LL.newList LL.defaultAlloc)
  onO (LL.swap tmp s)
  assignValsLoop E s ts
  destroyList E tmp

/-- The loop of `assign_nothrow(err, first, last)`: list.hpp:741-750, for list iterators. -/
def assignItLoop (E : ElemOps S) (s first last : Ptr) : M (ST S) Unit := do
  if (← onO (LL.itEq first last)) then pure ()
  else do
    pushBack E s (.obj (← onO (LL.deref first)))
    if (← failed) then pure () else assignItLoop E s (← onO (LL.incr first)) last
partial_fixpoint

/-- `assign_nothrow(err, first, last)`: list.hpp:734-751, for list iterators. -/
def assignIt (E : ElemOps S) (s first last : Ptr) : M (ST S) Unit := do
  let tmp ← onO (LL.newList LL.defaultAlloc)
  onO (LL.swap tmp s)
  assignItLoop E s first last
  destroyList E tmp

/-- `copy_nothrow(err, other)`: list.hpp:706-712. -/
def copyNothrow (E : ElemOps S) (s other : Ptr) : M (ST S) Unit := do
  assignIt E s (← onO (LL.begin_ other)) (← onO (LL.end_ other))

/-! ### Operations -/

/-- The loop of `merge`: list.hpp:1101-1115; returns the final `first2`.  `less` is the comparator. -/
def mergeLoop (less : Ptr → Ptr → M S Bool) (first1 last1 first2 last2 : Ptr) : M (ST S) Ptr := do
  if (← onO (LL.itEq first1 last1)) then pure first2
  else if (← onO (LL.itEq first2 last2)) then pure first2
  else do
    let b ← onO (LL.deref first2)
    let a ← onO (LL.deref first1)
    if (← compare less b a) then
      let next ← onO (LL.incr first2)
      onO (LL.transfer first1 first2 next)
      mergeLoop less first1 last1 next last2
    else
      mergeLoop less (← onO (LL.incr first1)) last1 first2 last2
partial_fixpoint

/-- `merge(other, comp)`: list.hpp:1090-1121. -/
def merge (less : Ptr → Ptr → M S Bool) (s other : Ptr) : M (ST S) Unit := do
  assertM (s ≠ other)
  let first1 ← onO (LL.begin_ s)
  let last1 ← onO (LL.end_ s)
  let first2 ← onO (LL.begin_ other)
  let last2 ← onO (LL.end_ other)
  let first2 ← mergeLoop less first1 last1 first2 last2
  if (← onO (LL.itEq first2 last2)) then pure () else onO (LL.transfer last1 first2 last2)

/-- Destruction of the array of lists in `sort` (in reverse order of construction). -/
def destroyLists (E : ElemOps S) : List Ptr → M (ST S) Unit
  | [] => pure ()
  | p :: ps => do
    destroyLists E ps
    destroyList E p

/-- The `for (counter = &tmp[0]; ...)` loop of `sort`: list.hpp:1205-1209; `i` is `counter - &tmp[0]`. -/
def sortCarry (less : Ptr → Ptr → M S Bool) (carry : Ptr) (tmp : List Ptr) (fill i : Nat) : M (ST S) Nat := do
  if i ≠ fill then
    let c ← onO (LL.arrAt tmp i)
    if (← onO (LL.empty c)) then pure i
    else do
      merge less c carry
      onO (LL.swap carry c)
      sortCarry less carry tmp fill (i + 1)
  else pure i
partial_fixpoint

/-- The `do ... while (!empty())` loop of `sort`: list.hpp:1201-1217; returns the final `fill - &tmp[0]`. -/
def sortLoop (less : Ptr → Ptr → M S Bool) (s carry : Ptr) (tmp : List Ptr) (fill : Nat) : M (ST S) Nat := do
  onO (do LL.spliceOne (← LL.begin_ carry) (← LL.begin_ s))
  let i ← sortCarry less carry tmp fill 0
  let c ← onO (LL.arrAt tmp i)
  onO (LL.swap carry c)
  let fill := if i = fill then fill + 1 else fill
  if (← onO (LL.empty s)) then pure fill else sortLoop less s carry tmp fill
partial_fixpoint

/-- The final merge loop of `sort`: list.hpp:1219-1222. -/
def sortMerge (less : Ptr → Ptr → M S Bool) (tmp : List Ptr) (fill i : Nat) : M (ST S) Unit := do
  if i ≠ fill then
    merge less (← onO (LL.arrAt tmp i)) (← onO (LL.arrAt tmp (i - 1)))
    sortMerge less tmp fill (i + 1)
  else pure ()
partial_fixpoint

/-- `sort(comp)`: list.hpp:1185-1225. -/
def sort (E : ElemOps S) (less : Ptr → Ptr → M S Bool) (s : Ptr) : M (ST S) Unit := do
  if (← onO (LL.getNext s)) ≠ s then
    if (← onO (do LL.getNext (← LL.getNext s))) ≠ s then
      let carry ← onO (LL.newList LL.defaultAlloc)
      let tmp ← onO (LL.newLists 64)
      let fill ← sortLoop less s carry tmp 0
      sortMerge less tmp fill 1
      onO (do LL.swap s (← LL.arrAt tmp (fill - 1)))
      destroyLists E tmp
      destroyList E carry
    else pure ()
  else pure ()

/-- The loop of `operator==`: list.hpp:651-660; `eq` is the comparison of elements. -/
def eqLoop (eq : Ptr → Ptr → M S Bool) (l lEnd r : Ptr) : M (ST S) Bool := do
  if (← onO (LL.itEq l lEnd)) then pure true
  else do
    let a ← onO (LL.deref l)
    let b ← onO (LL.deref r)
    if !(← onI (eq a b)) then pure false
    else eqLoop eq (← onO (LL.incr l)) lEnd (← onO (LL.incr r))
partial_fixpoint

/-- `operator==`: list.hpp:638-663. -/
def equal (eq : Ptr → Ptr → M S Bool) (l r : Ptr) : M (ST S) Bool := do
  if (← onO (LL.size l)) ≠ (← onO (LL.size r)) then pure false
  else eqLoop eq (← onO (LL.begin_ l)) (← onO (LL.end_ l)) (← onO (LL.begin_ r))

end Nestl.LO
