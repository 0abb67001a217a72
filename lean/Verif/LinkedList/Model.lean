import Verif.Base
set_option autoImplicit false
/-
Model of `nestl::list` (nestl/implementation/list.hpp, below `list.hpp`): a circular doubly linked list whose header is
the `list_node_base m_node` member of the list object.  Debug checks (`NESTL_CHECK_LIST_NODE`, `assert`) are part of the
model.  Consecutive checks of the same node without a write in between are written once.
-/
namespace Nestl.LL

/-- `list_node_base` / `list_node<T>`: list.hpp:46-49, 157-199.  `val = none` is raw storage (header nodes have none).
`owner` is the allocator a node was obtained from; for a header it is the list's own allocator
(`m_node_allocator`, list.hpp:601).  Allocators are represented by numbers; equal numbers are equal allocators. -/
structure LNode (V : Type) where
  next : Ptr
  prev : Ptr
  val : Option V
  owner : Nat

abbrev W (V : Type) := World (LNode V)

variable {V : Type}

/-- The allocator of a default constructed list (`const allocator_type& alloc = allocator_type()`). -/
def defaultAlloc : Nat := 0

/-- Read `m_next`: list.hpp:48. -/
def getNext (p : Ptr) : M (W V) Ptr := do pure (← rd p).next
/-- Read `m_prev`: list.hpp:49. -/
def getPrev (p : Ptr) : M (W V) Ptr := do pure (← rd p).prev
/-- Assign `m_next`: list.hpp:48. -/
def setNext (p q : Ptr) : M (W V) Unit := modCell p fun n => { n with next := q }
/-- Assign `m_prev`: list.hpp:49. -/
def setPrev (p q : Ptr) : M (W V) Unit := modCell p fun n => { n with prev := q }

/-- `NESTL_CHECK_LIST_NODE(node)`: list.hpp:27-44. -/
def checkNode (p : Ptr) : M (W V) Unit := do
  assertM (p ≠ .null)
  assertM ((← getPrev p) ≠ .null)
  assertM ((← getNext p) ≠ .null)
  assertM ((← getNext (← getPrev p)) = p)
  assertM ((← getPrev (← getNext p)) = p)

/-- `init_empty`: list.hpp:88-94. -/
def initEmpty (p : Ptr) : M (W V) Unit := do
  setNext p p
  setPrev p p
  checkNode p

/-- `inject`: list.hpp:96-108. -/
def inject (p node : Ptr) : M (W V) Unit := do
  checkNode p
  checkNode node
  setNext p node
  setPrev p (← getPrev node)
  setNext (← getPrev node) p
  setPrev node p
  checkNode p
  checkNode node

/-- `remove`: list.hpp:110-130. -/
def removeNode (p : Ptr) : M (W V) Unit := do
  checkNode p
  let nextNode ← getNext p
  checkNode nextNode
  let prevNode ← getPrev p
  checkNode prevNode
  setNext prevNode nextNode
  setPrev nextNode prevNode
  checkNode nextNode
  checkNode prevNode

/-- `list_node_base::transfer`: list.hpp:133-153. -/
def transferNodes (p first last : Ptr) : M (W V) Unit := do
  checkNode p
  checkNode first
  checkNode last
  assertM (p ≠ last)
  setNext (← getPrev last) p
  setNext (← getPrev first) last
  setNext (← getPrev p) first
  let oldPrev ← getPrev p
  setPrev p (← getPrev last)
  setPrev last (← getPrev first)
  setPrev first oldPrev
  checkNode p
  checkNode first
  checkNode last

/-- `list_node_base::swap`: list.hpp:51-86 (chained assignments evaluated from the right). -/
def swapNodes (l r : Ptr) : M (W V) Unit := do
  checkNode l
  checkNode r
  if (← getNext l) ≠ l then
    if (← getNext r) ≠ r then
      let ln ← getNext l
      setNext l (← getNext r)
      setNext r ln
      let lp ← getPrev l
      setPrev l (← getPrev r)
      setPrev r lp
      setNext (← getPrev l) l
      setPrev (← getNext l) l
      setNext (← getPrev r) r
      setPrev (← getNext r) r
    else
      setNext r (← getNext l)
      setPrev r (← getPrev l)
      setNext (← getPrev r) r
      setPrev (← getNext r) r
      setPrev l l
      setNext l l
  else if (← getNext r) ≠ r then
    setNext l (← getNext r)
    setPrev l (← getPrev r)
    setNext (← getPrev l) l
    setPrev (← getNext l) l
    setPrev r r
    setNext r r
  else pure ()
  checkNode l
  checkNode r

/-! ### Iterators: list.hpp:202-415 -/

/-- `*it`: list.hpp:224-229, 337-341. -/
def deref (p : Ptr) : M (W V) V := do
  checkNode p
  match (← rd p).val with
  | some v => pure v
  | none => fault .rawRead

/-- `++it`: list.hpp:238-256, 349-367. -/
def incr (p : Ptr) : M (W V) Ptr := do
  checkNode p
  let q ← getNext p
  checkNode q
  pure q

/-- `--it`: list.hpp:258-276, 369-387. -/
def decr (p : Ptr) : M (W V) Ptr := do
  checkNode p
  let q ← getPrev p
  checkNode q
  pure q

/-- `a == b`: list.hpp:278-292, 389-403. -/
def itEq (a b : Ptr) : M (W V) Bool := do
  checkNode a
  checkNode b
  pure (decide (a = b))

/-- `begin()`, `cbegin()`: list.hpp:786-805. -/
def begin_ (s : Ptr) : M (W V) Ptr := do
  let p ← getNext s
  checkNode p
  pure p

/-- `end()`, `cend()`: list.hpp:807-826. -/
def end_ (s : Ptr) : M (W V) Ptr := do
  checkNode s
  pure s

/-- `empty()`: list.hpp:871-876. -/
def empty (s : Ptr) : M (W V) Bool := do pure (decide ((← getNext s) = s))

/-- `std::distance(first, last)` on list iterators. -/
def distance (first last : Ptr) : M (W V) Nat := do
  if (← itEq first last) then pure 0
  else do
    let n ← distance (← incr first) last
    pure (n + 1)
partial_fixpoint

/-- `size()`: list.hpp:878-883. -/
def size (s : Ptr) : M (W V) Nat := do distance (← begin_ s) (← end_ s)

/-- `front()`: list.hpp:753-767. -/
def front (s : Ptr) : M (W V) V := do
  assertM (!(← empty s))
  deref (← begin_ s)

/-- `back()`: list.hpp:769-783 (`*rbegin()` is `*--end()`). -/
def back (s : Ptr) : M (W V) V := do
  assertM (!(← empty s))
  deref (← decr (← end_ s))

/-! ### Construction and destruction -/

/-- `list(alloc)`: list.hpp:669-675. -/
def newList (a : Nat) : M (W V) Ptr := do
  let s ← newObj fun self => { next := self, prev := self, val := none, owner := a }
  initEmpty s
  pure s

/-- `destroy_value`: list.hpp:167-171 with nestl/detail/destroy.hpp:17-21. -/
def destroyVal (p : Ptr) : M (W V) Unit := do
  match (← rd p).val with
  | none => fault .rawRead
  | some _ => modCell p fun n => { n with val := none }

/-- `m_node_allocator.deallocate(node, 1)`. -/
def putNode (s p : Ptr) : M (W V) Unit := do
  let a := (← rd s).owner
  freeCell p fun n =>
    if n.owner ≠ a then .error .wrongAllocator
    else if n.val.isSome then .error .freeLive else .ok ()

/-- Loop of `destroy_list_content`: list.hpp:1243-1252. -/
def destroyLoop (s cur : Ptr) : M (W V) Unit := do
  if cur ≠ s then
    let nx ← getNext cur
    destroyVal cur
    putNode s cur
    destroyLoop s nx
  else pure ()
partial_fixpoint

/-- `destroy_list_content`: list.hpp:1239-1253. -/
def destroyContent (s : Ptr) : M (W V) Unit := do destroyLoop s (← getNext s)

/-- `~list()`: list.hpp:686-690; then the object goes out of scope. -/
def destroyList (s : Ptr) : M (W V) Unit := do
  destroyContent s
  dropObj s

/-- `clear()`: list.hpp:893-899. -/
def clear (s : Ptr) : M (W V) Unit := do
  destroyContent s
  initEmpty s

/-- `swap(other)`: list.hpp:1060-1065, 1255-1260 (the allocators are not exchanged). -/
def swap (s other : Ptr) : M (W V) Unit := swapNodes other s

/-- `list(list&&)`: list.hpp:677-684. -/
def moveCtor (other : Ptr) : M (W V) Ptr := do
  let s ← newList (← rd other).owner
  swapNodes other s
  pure s

/-- `operator=(list&&)` and `move_assign`: list.hpp:698-704, 1262-1268 (ill-formed if instantiated, `move_assign` binds an
lvalue to `list&&`; modelled by intent).  The allocator is not assigned. -/
def moveAssign (s other : Ptr) : M (W V) Unit := do
  let tmp ← moveCtor s
  swap s other
  destroyList tmp

/-! ### Modifiers -/

/-- `create_node`: list.hpp:1270-1290 with the deallocation guard (destroy.hpp:62-89) and
class_operations.hpp:32-37. -/
def createNode (s : Ptr) (v : V) : M (W V) Ptr := do
  let a := (← rd s).owner
  let n ← allocCell fun junk => { junk with val := none, owner := a }
  if (← hasErr) then pure .null else do
  if (← tryCtor) then
    match (← rd n).val with
    | some _ => fault .overwriteLive
    | none => modCell n fun c => { c with val := some v }
  else pure ()
  if (← hasErr) then
    putNode s n            -- ~allocGuard
    pure .null
  else pure n              -- allocGuard.release()

/-- `emplace_nothrow(err, pos, args...)`: list.hpp:951-968; `insert_nothrow(err, pos, value)`: list.hpp:901-915. -/
def emplace (s pos : Ptr) (v : V) : M (W V) Ptr := do
  let n ← createNode s v
  if (← hasErr) then end_ s else do
  initEmpty n
  checkNode pos
  inject n pos
  checkNode n
  pure n

/-- `insert_nothrow(err, pos, count, value)`: list.hpp:917-932. -/
def insertN (s pos : Ptr) (v : V) : Nat → M (W V) Unit
  | 0 => pure ()
  | n + 1 => do
    let pos ← emplace s pos v
    if (← hasErr) then pure () else insertN s pos v n

/-- `insert_nothrow(err, pos, first, last)`: list.hpp:934-949; the range is given by the values it yields. -/
def insertRange (s pos : Ptr) : List V → M (W V) Unit
  | [] => pure ()
  | v :: vs => do
    let pos ← emplace s pos v
    if (← hasErr) then pure () else insertRange s pos vs

/-- `erase(pos)`: list.hpp:970-983. -/
def erase (s pos : Ptr) : M (W V) Ptr := do
  checkNode pos
  let ret ← getNext pos
  checkNode ret
  removeNode pos
  destroyVal pos
  putNode s pos
  pure ret

/-- `erase(first, last)`: list.hpp:985-994 (ill-formed if instantiated: `get_list_node` is private and constant; modelled by
intent). -/
def eraseRange (s first last : Ptr) : M (W V) Ptr := do
  if (← itEq first last) then pure last
  else do eraseRange s (← erase s first) last
partial_fixpoint

/-- `push_back_nothrow` / `emplace_back_nothrow`: list.hpp:997-1019. -/
def pushBack (s : Ptr) (v : V) : M (W V) Unit := do
  let _ ← emplace s (← end_ s) v
  pure ()

/-- `push_front_nothrow` / `emplace_front_nothrow`: list.hpp:1028-1050. -/
def pushFront (s : Ptr) (v : V) : M (W V) Unit := do
  let _ ← emplace s (← begin_ s) v
  pure ()

/-- `pop_back()`: list.hpp:1021-1026. -/
def popBack (s : Ptr) : M (W V) Unit := do
  let p ← getPrev s
  checkNode p
  let _ ← erase s p
  pure ()

/-- `pop_front()`: list.hpp:1052-1057. -/
def popFront (s : Ptr) : M (W V) Unit := do
  let _ ← erase s (← begin_ s)
  pure ()

/-- The loop of `assign_nothrow(err, n, val)`: list.hpp:721-730. -/
def assignLoop (s : Ptr) (v : V) : Nat → M (W V) Unit
  | 0 => pure ()
  | n + 1 => do
    pushBack s v
    if (← hasErr) then pure () else assignLoop s v n

/-- `assign_nothrow(err, n, val)`: list.hpp:714-731. -/
def assignN (s : Ptr) (n : Nat) (v : V) : M (W V) Unit := do
  let tmp ← newList defaultAlloc
  swap tmp s
  assignLoop s v n
  destroyList tmp

/-- The loop of `assign_nothrow(err, first, last)`: list.hpp:741-750, for a range that is not part of a list. -/
def assignValsLoop (s : Ptr) : List V → M (W V) Unit
  | [] => pure ()
  | v :: vs => do
    pushBack s v
    if (← hasErr) then pure () else assignValsLoop s vs

/-- `assign_nothrow(err, first, last)`: list.hpp:734-751, for a range that is not part of a list. -/
def assignVals (s : Ptr) (vs : List V) : M (W V) Unit := do
  let tmp ← newList defaultAlloc
  swap tmp s
  assignValsLoop s vs
  destroyList tmp

/-- The loop of `assign_nothrow(err, first, last)`: list.hpp:741-750, for list iterators. -/
def assignItLoop (s first last : Ptr) : M (W V) Unit := do
  if (← itEq first last) then pure ()
  else do
    pushBack s (← deref first)
    if (← hasErr) then pure () else assignItLoop s (← incr first) last
partial_fixpoint

/-- `assign_nothrow(err, first, last)`: list.hpp:734-751, for list iterators. -/
def assignIt (s first last : Ptr) : M (W V) Unit := do
  let tmp ← newList defaultAlloc
  swap tmp s
  assignItLoop s first last
  destroyList tmp

/-- `copy_nothrow(err, other)`: list.hpp:706-712. -/
def copyNothrow (s other : Ptr) : M (W V) Unit := do
  assignIt s (← begin_ other) (← end_ other)

/-! ### Operations -/

/-- `list::transfer`: list.hpp:1292-1298. -/
def transfer (pos first last : Ptr) : M (W V) Unit := do
  checkNode pos
  checkNode first
  checkNode last
  transferNodes pos first last

/-- The loop of `merge`: list.hpp:1101-1115; returns the final `first2`. -/
def mergeLoop (lt : V → V → Bool) (first1 last1 first2 last2 : Ptr) : M (W V) Ptr := do
  if (← itEq first1 last1) then pure first2
  else if (← itEq first2 last2) then pure first2
  else do
    let b ← deref first2
    let a ← deref first1
    if (← cmp lt b a) then
      let next ← incr first2
      transfer first1 first2 next
      mergeLoop lt first1 last1 next last2
    else
      mergeLoop lt (← incr first1) last1 first2 last2
partial_fixpoint

/-- `merge(other, comp)`: list.hpp:1090-1121. -/
def merge (lt : V → V → Bool) (s other : Ptr) : M (W V) Unit := do
  assertM (s ≠ other)
  let first1 ← begin_ s
  let last1 ← end_ s
  let first2 ← begin_ other
  let last2 ← end_ other
  let first2 ← mergeLoop lt first1 last1 first2 last2
  if (← itEq first2 last2) then pure () else transfer last1 first2 last2

/-- `splice(pos, other)`: list.hpp:1123-1138. -/
def spliceAll (pos other : Ptr) : M (W V) Unit := do
  if (← empty other) then pure ()
  else transfer pos (← begin_ other) (← end_ other)

/-- `splice(pos, other, it)`: list.hpp:1140-1159. -/
def spliceOne (pos it : Ptr) : M (W V) Unit := do
  let j ← incr it
  if (← itEq pos it) then pure ()
  else if (← itEq pos j) then pure ()
  else transfer pos it j

/-- `splice(pos, other, first, last)`: list.hpp:1161-1176. -/
def spliceRange (pos first last : Ptr) : M (W V) Unit := do
  if (← itEq first last) then pure () else transfer pos first last

/-- Access to `tmp[i]` of the array of 64 lists in `sort`. -/
def arrAt (tmp : List Ptr) (i : Nat) : M (W V) Ptr :=
  match tmp[i]? with
  | some p => pure p
  | none => fault .outOfBounds

/-- `list tmp[64]`: list.hpp:1197. -/
def newLists : Nat → M (W V) (List Ptr)
  | 0 => pure []
  | n + 1 => do
    let p ← newList defaultAlloc
    let ps ← newLists n
    pure (p :: ps)

/-- Destruction of the array (in reverse order of construction). -/
def destroyLists : List Ptr → M (W V) Unit
  | [] => pure ()
  | p :: ps => do
    destroyLists ps
    destroyList p

/-- The `for (counter = &tmp[0]; ...)` loop of `sort`: list.hpp:1205-1209; `i` is `counter - &tmp[0]`. -/
def sortCarry (lt : V → V → Bool) (carry : Ptr) (tmp : List Ptr) (fill i : Nat) : M (W V) Nat := do
  if i ≠ fill then
    let c ← arrAt tmp i
    if (← empty c) then pure i
    else do
      merge lt c carry
      swap carry c
      sortCarry lt carry tmp fill (i + 1)
  else pure i
partial_fixpoint

/-- The `do ... while (!empty())` loop of `sort`: list.hpp:1201-1217; returns the final `fill - &tmp[0]`. -/
def sortLoop (lt : V → V → Bool) (s carry : Ptr) (tmp : List Ptr) (fill : Nat) : M (W V) Nat := do
  spliceOne (← begin_ carry) (← begin_ s)
  let i ← sortCarry lt carry tmp fill 0
  let c ← arrAt tmp i
  swap carry c
  let fill := if i = fill then fill + 1 else fill
  if (← empty s) then pure fill else sortLoop lt s carry tmp fill
partial_fixpoint

/-- The final merge loop of `sort`: list.hpp:1219-1222. -/
def sortMerge (lt : V → V → Bool) (tmp : List Ptr) (fill i : Nat) : M (W V) Unit := do
  if i ≠ fill then
    merge lt (← arrAt tmp i) (← arrAt tmp (i - 1))
    sortMerge lt tmp fill (i + 1)
  else pure ()
partial_fixpoint

/-- `sort(comp)`: list.hpp:1185-1225. -/
def sort (lt : V → V → Bool) (s : Ptr) : M (W V) Unit := do
  if (← getNext s) ≠ s then
    if (← getNext (← getNext s)) ≠ s then
      let carry ← newList defaultAlloc
      let tmp ← newLists 64
      let fill ← sortLoop lt s carry tmp 0
      sortMerge lt tmp fill 1
      swap s (← arrAt tmp (fill - 1))
      destroyLists tmp
      destroyList carry
    else pure ()
  else pure ()

/-- The loop of `operator==`: list.hpp:651-660. -/
def eqLoop (eq : V → V → Bool) (l lEnd r : Ptr) : M (W V) Bool := do
  if (← itEq l lEnd) then pure true
  else if !(eq (← deref l) (← deref r)) then pure false
  else eqLoop eq (← incr l) lEnd (← incr r)
partial_fixpoint

/-- `operator==`: list.hpp:638-663; `eq` is the element comparison. -/
def equal (eq : V → V → Bool) (l r : Ptr) : M (W V) Bool := do
  if (← size l) ≠ (← size r) then pure false
  else eqLoop eq (← begin_ l) (← end_ l) (← begin_ r)

end Nestl.LL
