import Verif.TreeOf.Model
import Verif.Full.Client
import Verif.RBTree.EqualOps
set_option autoImplicit false
/-
The client view of trees and sets of objects (nestl/implementation/set.hpp, nestl/implementation/detail/red_black_tree.hpp): API
calls, their preconditions, reachable states, what a client observes, and the specification of the calls.
-/
namespace Nestl.TO
open Nestl.VO (Elem ElemOps)
open Nestl.NO (NS onO Compares Arg)
open Nestl.RB (TNode WSorted LCut UCut ECut Cut Near)
open Nestl.Set (Alive Contents posOf put Equiv)
open Nestl.Multi (MCall Asym)
open Nestl.Full (FCall FValid UMode UsesAlloc unlike)
variable {S A X : Type}

/-- A comparator of objects, and the comparison of values that it computes. -/
structure Order (S A : Type) where
  less : Ptr → Ptr → M S Bool
  lt : A → A → Bool

/-- Ways to insert an element. -/
inductive How
  | plain                                -- `t.m_insert_unique(err, x)`, `s.insert_nothrow(err, x)`
  | at (pos : Ptr)                       -- `t.m_insert_unique_at(err, pos, x)`
  | emplace                              -- `t.m_emplace_unique(err, x)`
  | emplaceAt (pos : Ptr)                -- `t.m_emplace_hint_unique(err, pos, x)`
  | upper                                -- `t.m_emplace_equal(err, x)`
  | lower                                -- `t.m_insert_equal_lower(err, x)`
  | hint (pos : Ptr)                     -- `t.m_emplace_hint_equal(err, pos, x)`

/-- Calls a client can make.  Arguments are objects (of the client or elements of a tree); `Arg.mov t` is `std::move(t)`, and
`Arg.none` is an emplacement without arguments.  `prop` tells whether the allocator propagates. -/
inductive Call (S A : Type)
  | create (alloc : Nat)                                          -- `set s(alloc);`
  | insert (ord : Order S A) (h : How) (s : Ptr) (a : Arg)
  | eraseKey (ord : Order S A) (s t : Ptr)                        -- `s.erase(t)`
  | eraseKeys (ord : Order S A) (s : Ptr) (ts : List Ptr)         -- `s.erase(first, last)` for an array of keys
  | eraseAt (s it : Ptr)                                          -- `s.erase(it)`
  | eraseRange (s first last : Ptr)                               -- `s.erase(first, last)`
  | clear (s : Ptr)                                               -- `s.clear()`
  | find (ord : Order S A) (s t : Ptr)                            -- `s.find(t)`
  | copy (prop : Bool) (d s : Ptr)                                -- `d.copy_nothrow(err, s)`
  | move (s : Ptr)                                                -- `set d(std::move(s));`
  | swap (prop : Bool) (s t : Ptr)                                -- `s.swap(t)`
  | assign (prop : Bool) (d s : Ptr)                              -- `d.m_move_assign(s)`
  | destroy (s : Ptr)                                             -- end of the lifetime of `s`

/-- Results of calls. -/
inductive Res
  | unit
  | obj (s : Ptr)                        -- a new object
  | pos (it : Ptr)                       -- an iterator
  | ins (it : Ptr) (b : Bool)            -- `pair<iterator, bool>`
  | num (n : Nat)
  | ok (b : Bool)

/-- The program executed by a call. -/
def exec (E : ElemOps S) : Call S A → M (ST S) Res
  | .create a => do pure (.obj (← onO (RB.newTree a)))
  | .insert ord .plain s a => do let r ← insertUnique ord.less E s a; pure (.ins r.1 r.2)
  | .insert ord (.at pos) s a => do pure (.pos (← insertUniqueAt ord.less E s pos a))
  | .insert ord .emplace s a => do let r ← emplaceUnique ord.less E s a; pure (.ins r.1 r.2)
  | .insert ord (.emplaceAt pos) s a => do pure (.pos (← emplaceHintUnique ord.less E s pos a))
  | .insert ord .upper s a => do pure (.pos (← emplaceEqual ord.less E s a))
  | .insert ord .lower s a => do pure (.pos (← insertEqualLower ord.less E s a))
  | .insert ord (.hint pos) s a => do pure (.pos (← emplaceHintEqual ord.less E s pos a))
  | .eraseKey ord s t => do pure (.num (← TO.eraseKey ord.less E s t))
  | .eraseKeys ord s ts => do TO.eraseKeys ord.less E s ts; pure .unit
  | .eraseAt s it => do pure (.pos (← eraseIter E s it))
  | .eraseRange s f l => do pure (.pos (← TO.eraseRange E s f l))
  | .clear s => do TO.clear E s; pure .unit
  | .find ord s t => do pure (.pos (← TO.find ord.less s t))
  | .copy prop d s => do copyNothrow E prop d s; pure .unit
  | .move s => do pure (.obj (← onO (RB.moveCtor s)))
  | .swap prop s t => do onO (RB.swapTrees prop s t); pure .unit
  | .assign prop d s => do pure (.ok (← moveAssign E prop d s))
  | .destroy s => do destroyTree E s; pure .unit

/-- The tree `s` consists of the given positions and objects. -/
def Objs (st : ST S) (s : Ptr) (qs : List (Ptr × Ptr)) : Prop := Contents st.o s qs

/-- `q` is an element of a tree. -/
def IsElem (st : ST S) (q : Ptr) : Prop := ∃ s qs p, Alive st.o s ∧ Objs st s qs ∧ (p, q) ∈ qs

/-- The same insertion in trees of values. -/
def How.call {K : Type} (s : Ptr) (k : K) : How → FCall K
  | .plain => .multi (.base (.insert s k))
  | .at pos => .unique (.at pos) s k
  | .emplace => .unique .emplace s k
  | .emplaceAt pos => .unique (.emplaceAt pos) s k
  | .upper => .multi (.equal .upper s k)
  | .lower => .multi (.equal .lower s k)
  | .hint pos => .multi (.equal (.hint pos) s k)

/-- The address of an argument. -/
def addrOf : Arg → Ptr
  | .obj t | .mov t => t
  | .none => .null

/-- The same call on trees whose elements are addresses; used for the preconditions that only concern the trees. -/
def Call.addr : Call S A → FCall Ptr
  | .create a => .multi (.base (.create a))
  | .insert _ h s a => h.call s (addrOf a)
  | .eraseKey _ s t => .multi (.base (.eraseKey s t))
  | .eraseKeys _ s ts => .eraseKeys s ts
  | .eraseAt s it => .multi (.base (.eraseAt s it))
  | .eraseRange s f l => .multi (.base (.eraseRange s f l))
  | .clear s => .multi (.base (.clear s))
  | .find _ s t => .multi (.base (.find s t))
  | .copy prop d s => .multi (.base (.copy prop d s))
  | .move s => .multi (.base (.move s))
  | .swap prop s t => .swap prop s t
  | .assign prop d s => .assign prop d s
  | .destroy s => .multi (.base (.destroy s))

/-- The objects a call reads. -/
def Call.reads : Call S A → Ptr → Prop
  | .insert _ _ _ (.obj t), q | .eraseKey _ _ t, q | .find _ _ t, q => q = t
  | .eraseKeys _ _ ts, q => q ∈ ts
  | _, _ => False

/-- The object a call moves from. -/
def Call.moves : Call S A → Ptr → Prop
  | .insert _ _ _ (.mov t), q => q = t
  | _, _ => False

/-- Objects that must not be elements of trees, because they are used after elements have been erased. -/
def Call.outer : Call S A → Ptr → Prop
  | .eraseKeys _ _ ts, q => q ∈ ts
  | _, _ => False

/-- The comparator of a call. -/
def Call.ord : Call S A → Option (Order S A)
  | .insert ord _ _ _ | .eraseKey ord _ _ | .eraseKeys ord _ _ | .find ord _ _ => some ord
  | _ => none

/-- Insertions with a hint. -/
def How.hinted : How → Prop
  | .at _ | .emplaceAt _ | .hint _ => True
  | _ => False

/-- The arguments an insertion accepts: `m_insert_unique_at` takes an lvalue, and only emplacements construct an element without
arguments. -/
def How.accepts : How → Arg → Prop
  | .at _, .mov _ | .plain, .none | .at _, .none | .lower, .none => False
  | _, _ => True

/-- See `How.hinted` and `How.accepts`. -/
def Call.insertOk : Call S A → Prop
  | .insert ord h _ a => h.accepts a ∧ (h.hinted → Asym ord.lt)
  | _ => True

/-- Preconditions of calls: those of `FValid`; with a hint the comparator is asymmetric; objects that are read exist; objects that
are moved exist and are not elements of trees; the array of keys that is erased does not consist of elements of trees; comparators
only look at objects and compute a function of their values. -/
def Valid (E : Elem S A X) (s : ST S) (c : Call S A) : Prop :=
  FValid (fun _ _ => false) s.o c.addr ∧ c.insertOk ∧ (∀ q, c.reads q → E.val s.i q ≠ none) ∧
    (∀ q, c.moves q → E.val s.i q ≠ none ∧ ¬ IsElem s q) ∧ (∀ q, c.outer q → ¬ IsElem s q) ∧
    ∀ ord, c.ord = some ord → Compares E ord.less ord.lt

/-- The value of an argument; `f` are the values of the objects. -/
def ArgMeans (blank : A) (f : Ptr → Option A) : Arg → A → Prop
  | .obj t, x | .mov t, x => f t = some x
  | .none, x => x = blank

/-- The call on trees of values that a call on trees of objects stands for. -/
def Call.Means (blank : A) (f : Ptr → Option A) : Call S A → FCall A → Prop
  | .create a, c => c = .multi (.base (.create a))
  | .insert _ h s a, c => ∃ x, ArgMeans blank f a x ∧ c = h.call s x
  | .eraseKey _ s t, c => ∃ x, f t = some x ∧ c = .multi (.base (.eraseKey s x))
  | .eraseKeys _ s ts, c => ∃ xs : List A, ts.map f = xs.map some ∧ c = .eraseKeys s xs
  | .eraseAt s it, c => c = .multi (.base (.eraseAt s it))
  | .eraseRange s f l, c => c = .multi (.base (.eraseRange s f l))
  | .clear s, c => c = .multi (.base (.clear s))
  | .find _ s t, c => ∃ x, f t = some x ∧ c = .multi (.base (.find s x))
  | .copy prop d s, c => c = .multi (.base (.copy prop d s))
  | .move s, c => c = .multi (.base (.move s))
  | .swap prop s t, c => c = .swap prop s t
  | .assign prop d s, c => c = .assign prop d s
  | .destroy s, c => c = .multi (.base (.destroy s))

/-- The comparison of values of a call. -/
def Call.lt (c : Call S A) : A → A → Bool := (c.ord.map Order.lt).getD fun _ _ => false

/-- A fresh error object is passed to every call. -/
def ready (s : ST S) : ST S := ⟨Set.ready s.o, s.i⟩

/-- Reachable states: after calls on trees and, in between, anything that the client does with objects of the element class (its
own or elements of trees), as long as the elements of the trees are not destroyed. -/
inductive Reach (E : Elem S A X) : ST S → Prop
  | start {env : Env (TNode Ptr)} {i : S} : E.inv i → Reach E ⟨Set.start env, i⟩
  | call {s s' : ST S} {c : Call S A} {r : Res} : Reach E s → Valid E s c → Runs (exec E.toElemOps c) (ready s) r s' → Reach E s'
  | client {s : ST S} {i : S} : Reach E s → E.inv i → (∀ q, IsElem s q → E.val i q ≠ none) → Reach E ⟨s.o, i⟩

/-- The positions and the values of the elements of the tree `s` are `L`. -/
def Values (E : Elem S A X) (st : ST S) (s : Ptr) (L : List (Ptr × A)) : Prop :=
  ∃ qs, Objs st s qs ∧ (qs.map fun x => (x.1, E.val st.i x.2)) = L.map fun x => (x.1, some x.2)

/-- Abstract states: the allocator of every tree, and the positions and values of its elements in the order of iteration. -/
abbrev AState (A : Type) := Ptr → Option (Nat × List (Ptr × A))

/-- The trees of the state are `B`. -/
def Shows (E : Elem S A X) (st : ST S) (B : AState A) : Prop :=
  (∀ s, Alive st.o s ↔ B s ≠ none) ∧ ∀ s al L, B s = some (al, L) → UsesAlloc st.o s al ∧ Values E st s L

/-- The insertion has not moved from its argument although it has not failed: the element was there. -/
def Call.kept : Call S A → Res → Prop
  | .insert _ .plain _ _, .ins _ false => True
  | _, _ => False

/-- The value of an object that does not belong to a tree after a call: a moved-from object is empty. -/
def Call.After (blank : A) (c : Call S A) (r : Res) (failed : Bool) (q : Ptr) (x y : A) : Prop :=
  (c.moves q ∧ failed = false ∧ ¬ c.kept r → y = blank) ∧ (¬ (c.moves q ∧ failed = false ∧ ¬ c.kept r) → y = x)

/-! ### Specification of the calls -/

/-- A sequence in the order of a strict weak order; equivalent elements are permitted. -/
def Ordered (lt : A → A → Bool) (L : List (Ptr × A)) : Prop := SWO lt ∧ WSorted lt L

/-- No tree has an element at the position `p`. -/
def Unused (B : AState A) (p : Ptr) : Prop := ∀ s o L, B s = some (o, L) → p ∉ L.map Prod.fst

/-- The tree `s` has an element at the position `p` that is equivalent to `k`. -/
def Present (lt : A → A → Bool) (B : AState A) (s : Ptr) (k : A) (p : Ptr) : Prop :=
  ∃ o L k', B s = some (o, L) ∧ (p, k') ∈ L ∧ lt k' k = false ∧ (Ordered lt L → Equiv lt k' k)

/-- No element of the tree `s` is equivalent to `k`. -/
def Absent (lt : A → A → Bool) (B : AState A) (s : Ptr) (k : A) : Prop :=
  ∃ o L, B s = some (o, L) ∧ (Ordered lt L → ∀ x ∈ L, ¬ Equiv lt x.2 k)

/-- `k` is now an element of `s` at the new position `p`, between `Y` and `Z`. -/
def Added (lt : A → A → Bool) (B : AState A) (s : Ptr) (k : A) (p : Ptr) (place : List (Ptr × A) → List (Ptr × A) → Prop)
    (B' : AState A) : Prop :=
  ∃ o Y Z, B s = some (o, Y ++ Z) ∧ B' = put B s (some (o, Y ++ (p, k) :: Z)) ∧ Unused B p ∧ (Ordered lt (Y ++ Z) → place Y Z)

/-- The place of a new element next to equivalent ones: behind them, before them, or as near as possible to the hint. -/
def placeOf (lt : A → A → Bool) (s : Ptr) (k : A) : Multi.Mode → List (Ptr × A) → List (Ptr × A) → Prop
  | .upper, Y, Z => UCut lt k Y Z
  | .lower, Y, Z => LCut lt k Y Z
  | .hint pos, Y, Z => ∃ Y0 Z0, Y ++ Z = Y0 ++ Z0 ∧ pos = posOf s Z0 ∧ Near lt k Y0 Z0 Y Z

/-- The result of an insertion of an element that may be there already. -/
def ures (m : UMode) (p : Ptr) (b : Bool) : Res :=
  match m with
  | .emplace => .ins p b
  | _ => .pos p

/-- What a call on trees of values does: `r` is the result, and `failed` tells whether an error is reported. -/
def Spec (lt : A → A → Bool) (B : AState A) : FCall A → Res → Bool → AState A → Prop
  | .multi (.base (.create a)), r, failed, B' => ∃ p, r = .obj p ∧ B p = none ∧ failed = false ∧ B' = put B p (some (a, []))
  | .multi (.base (.insert s k)), r, failed, B' =>
      (∃ p, r = .ins p false ∧ failed = false ∧ Present lt B s k p ∧ B' = B) ∨
      (r = .ins s true ∧ failed = true ∧ Absent lt B s k ∧ B' = B) ∨
      ∃ p, r = .ins p true ∧ failed = false ∧ Added lt B s k p (Cut lt k) B'
  | .multi (.base (.eraseKey s k)), r, failed, B' => ∃ o Y M Z, B s = some (o, Y ++ (M ++ Z)) ∧ r = .num M.length ∧ failed = false ∧
      B' = put B s (some (o, Y ++ Z)) ∧ (Ordered lt (Y ++ (M ++ Z)) → ECut lt k Y M Z)
  | .multi (.base (.eraseAt s it)), r, failed, B' => ∃ o Y k Z, B s = some (o, Y ++ (it, k) :: Z) ∧ r = .pos (posOf s Z) ∧
      failed = false ∧ B' = put B s (some (o, Y ++ Z))
  | .multi (.base (.eraseRange s f l)), r, failed, B' => ∃ o Y M Z, B s = some (o, Y ++ (M ++ Z)) ∧ f = posOf s (M ++ Z) ∧
      l = posOf s Z ∧ r = .pos l ∧ failed = false ∧ B' = put B s (some (o, Y ++ Z))
  | .multi (.base (.clear s)), r, failed, B' => ∃ o L, B s = some (o, L) ∧ r = .unit ∧ failed = false ∧ B' = put B s (some (o, []))
  | .multi (.base (.find s k)), r, failed, B' => failed = false ∧ B' = B ∧ ((r = .pos s ∧ Absent lt B s k) ∨
      ∃ o L p k', B s = some (o, L) ∧ (p, k') ∈ L ∧ r = .pos p ∧ Equiv lt k' k)
  | .multi (.base (.copy prop d s)), r, failed, B' => r = .unit ∧ ((d = s ∧ B s ≠ none ∧ failed = false ∧ B' = B) ∨
      ∃ o o' L L' L2, d ≠ s ∧ B d = some (o, L) ∧ B s = some (o', L') ∧ B' = put B d (some (if prop then o' else o, L2)) ∧
        L2.map Prod.snd = if failed then [] else L'.map Prod.snd)
  | .multi (.base (.move s)), r, failed, B' => ∃ p o L, r = .obj p ∧ B p = none ∧ B s = some (o, L) ∧ failed = false ∧
      B' = put (put B p (some (o, L))) s (some (o, []))
  | .multi (.base (.destroy s)), r, failed, B' => B s ≠ none ∧ r = .unit ∧ failed = false ∧ B' = put B s none
  | .multi (.equal m s k), r, failed, B' => (r = .pos s ∧ failed = true ∧ B s ≠ none ∧ B' = B) ∨
      ∃ p, r = .pos p ∧ failed = false ∧ Added lt B s k p (placeOf lt s k m) B'
  | .swap _ s t, r, failed, B' => B s ≠ none ∧ B t ≠ none ∧ r = .unit ∧ failed = false ∧ B' = put (put B s (B t)) t (B s)
  | .assign prop d s, r, failed, B' => ∃ o o' L L', B d = some (o, L) ∧ B s = some (o', L') ∧ failed = false ∧
      ((prop = false ∧ o ≠ o' ∧ r = .ok false ∧ B' = B) ∨
        ((prop = true ∨ o = o') ∧ r = .ok true ∧ B' = put (put B d (some (o', L'))) s (some (o', []))))
  | .eraseKeys s ks, r, failed, B' => ∃ o L L', B s = some (o, L) ∧ r = .unit ∧ failed = false ∧ B' = put B s (some (o, L')) ∧
      L'.Sublist L ∧ (Ordered lt L → L' = L.filter fun x => unlike lt ks x.2)
  | .unique m s k, r, failed, B' =>
      (∃ p, r = ures m p false ∧ failed = false ∧ Present lt B s k p ∧ B' = B) ∨
      (r = ures m s false ∧ failed = true ∧ B s ≠ none ∧ B' = B) ∨
      ∃ p, r = ures m p true ∧ failed = false ∧ Added lt B s k p (Cut lt k) B'

end Nestl.TO
