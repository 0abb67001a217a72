import Verif.Full.Query
set_option autoImplicit false
/-
Trees with a comparator each.  The other models of the tree have one comparator for all objects; the code stores one in every
object (`m_impl.m_key_compare`, rbt.hpp:755-800), and the objects of a program can have different ones (function pointers,
comparators with state).  Here the comparator of every object is part of the state, and the functions that set it are modelled
with these statements in them.

As in `RBTree/ModelSwap.lean`, `swap` and `m_move_assign` are modelled by intent.
-/
namespace Nestl.Own
open Nestl.RB Nestl.Set Nestl.Multi Nestl.Full
variable {K : Type}

/-- Comparators. -/
abbrev Less (K : Type) := K → K → Bool

/-- Program states: the memory, and the comparator that every tree object stores. -/
structure OW (K : Type) where
  w : W K
  cmp : Ptr → Less K

/-- A step that neither reads nor writes a stored comparator. -/
def lift {α : Type} (m : M (W K) α) : M (OW K) α := fun x =>
  match m x.w with
  | none => none
  | some (.error f) => some (.error f)
  | some (.ok (a, w')) => some (.ok (a, ⟨w', x.cmp⟩))

/-- Read `m_key_compare`; `key_comp()`: rbt.hpp:1080-1083. -/
def getCmp (s : Ptr) : M (OW K) (Less K) := fun x => some (.ok (x.cmp s, x))

/-- Write `m_key_compare`. -/
def setCmp (s : Ptr) (c : Less K) : M (OW K) Unit := fun x => some (.ok ((), ⟨x.w, put x.cmp s c⟩))

/-- `rb_tree(comp, alloc)`: rbt.hpp:999-1002; set.hpp:143-147.  `rb_tree(alloc)` (1004-1007; set.hpp:149-153) passes
`Compare()`. -/
def newTreeO (comp : Less K) (a : Nat) : M (OW K) Ptr := do
  let s ← lift (newTree a)
  setCmp s comp
  pure s

/-- Move constructor: rbt.hpp:1009-1016; set.hpp:155-159. -/
def moveCtorO (src : Ptr) : M (OW K) Ptr := do
  let a ← lift (do pure (← rd src).owner)
  let hdr ← newTreeO (← getCmp src) a
  lift (do if (← rd src).parent ≠ .null then moveData hdr src)
  pure hdr

/-- The statements of `copy_nothrow` after the assignment of the comparator: rbt.hpp:1063-1075. -/
def copyTree (hdr src : Ptr) : M (W K) Unit := do
  if (← rd src).parent ≠ .null then
    let link ← mCopy hdr (← rd src).parent hdr
    if (← hasErr) then pure () else do
    setParent hdr link
    setLeft hdr (← minLoop (← rd hdr).parent)
    setRight hdr (← maxLoop (← rd hdr).parent)
    let c := (← rd src).count
    setCount hdr (fun _ => c)
  else pure ()

/-- `copy_nothrow`: rbt.hpp:1031-1077; set.hpp:186-192.  An assignment of a comparator that fails leaves it as it was. -/
def copyNothrowO (prop : Bool) (hdr src : Ptr) : M (OW K) Unit := do
  if hdr ≠ src then
    lift (clear hdr)
    lift (allocOnCopy prop hdr src)
    if (← lift hasErr) then pure () else do
    if (← lift tryCtor) then setCmp hdr (← getCmp src) else pure ()
    if (← lift hasErr) then pure () else do
    lift (copyTree hdr src)
  else pure ()

/-- `swap`: rbt.hpp:1680-1724; the comparators are exchanged in line 1720. -/
def swapTreesO (prop : Bool) (s t : Ptr) : M (OW K) Unit := do
  lift (do
    if (← rd s).parent = .null then
      if (← rd t).parent ≠ .null then moveLinks s t else pure ()
    else if (← rd t).parent = .null then moveLinks t s
    else
      swapLinks s t
      setParent (← rd s).parent s
      setParent (← rd t).parent t
    swapCounts s t)
  let c ← getCmp s
  setCmp s (← getCmp t)
  setCmp t c
  lift (allocOnSwap prop s t)

/-- `m_move_assign`: rbt.hpp:1383-1402; the comparator is assigned first, in line 1387. -/
def moveAssignO (prop : Bool) (hdr src : Ptr) : M (OW K) Bool := do
  setCmp hdr (← getCmp src)
  lift (moveAssign prop hdr src)

/-- Calls a client can make: construction with a comparator, and the calls of `Full/Client.lean`. -/
inductive OCall (K : Type)
  | create (comp : Less K) (alloc : Nat)                -- `set s(comp, alloc);`
  | on (c : FCall K)

/-- The program executed by a call; a call that compares keys uses the comparator of its object.  `dflt` is `Compare()`. -/
def oexec (dflt : Less K) : OCall K → M (OW K) (FRes K)
  | .create comp a => do pure (.multi ⟨.obj (← newTreeO comp a), 0⟩)
  | .on (.multi (.base (.create a))) => do pure (.multi ⟨.obj (← newTreeO dflt a), 0⟩)
  | .on (.multi (.base (.copy prop d s))) => do copyNothrowO prop d s; pure (.multi ⟨.unit, 0⟩)
  | .on (.multi (.base (.move s))) => do pure (.multi ⟨.obj (← moveCtorO s), 0⟩)
  | .on (.swap prop s t) => do swapTreesO prop s t; pure .unit
  | .on (.assign prop d s) => do pure (.ok (← moveAssignO prop d s))
  | .on c =>
      match c.keyed with
      | some s => do
          let lt ← getCmp s
          lift (fexec lt c)
      | none => lift (fexec dflt c)

/-- A query (see `Full/Query.lean`) of an object uses the comparator of the object. -/
def oask (q : Query K) : M (OW K) (Answer K) := do
  let lt ← getCmp q.objects.1
  lift (ask lt q)

end Nestl.Own
