import Verif.Nested.Model
set_option autoImplicit false
/-
The client view of lists of lists: calls, histories and their mathematical specification.  Both levels are described by
the vocabulary of `Verif/LinkedList/Client.lean`; the elements of outer lists are inner list objects.
-/
namespace Nestl.NL
open Nestl.LL Nestl.LC
variable {V : Type}

/-- Calls a client can make.  `copy` tells whether the inner list `t` is passed as an lvalue or as an rvalue. -/
inductive NCall (V : Type)
  | outer (c : Call Ptr)                                -- a call on outer lists that neither creates nor destroys elements
  | inner (c : Call V)                                  -- any call on inner lists (elements or separate objects)
  | insert (copy : Bool) (s pos t : Ptr)                -- `s.insert_nothrow(err, pos, t)`
  | pushBack (copy : Bool) (s t : Ptr)                  -- `s.push_back_nothrow(err, t)`
  | pushFront (copy : Bool) (s t : Ptr)                 -- `s.push_front_nothrow(err, t)`
  | erase (s pos : Ptr)                                 -- `s.erase(pos)`
  | popBack (s : Ptr)                                   -- `s.pop_back()`
  | popFront (s : Ptr)                                  -- `s.pop_front()`
  | clear (s : Ptr)                                     -- `s.clear()`
  | copy (d s : Ptr)                                    -- `d.copy_nothrow(err, s)`
  | moveAssign (s t : Ptr)                              -- `s = std::move(t)`
  | destroy (s : Ptr)                                   -- end of the lifetime of `s`

/-- Calls that neither create nor destroy elements.  Comparators may look into the elements: they are arbitrary functions of
the element objects, and the inner lists do not change during the call. -/
def Structural : Call Ptr → Prop
  | .create _ | .move _ | .swap _ _ | .merge _ _ _ | .spliceAll _ _ _ | .spliceOne _ _ _ _ | .spliceRange _ _ _ _ _
  | .sort _ _ => True
  | _ => False

/-- The program executed by a call. -/
def exec : NCall V → M (NS V) Res
  | .outer c => onO (LC.exec c)
  | .inner c => onI (LC.exec c)
  | .insert b s pos t => do pure (.pos (← emplace b s pos t))
  | .pushBack b s t => do NL.pushBack b s t; pure .unit
  | .pushFront b s t => do NL.pushFront b s t; pure .unit
  | .erase s pos => do pure (.pos (← NL.erase s pos))
  | .popBack s => do NL.popBack s; pure .unit
  | .popFront s => do NL.popFront s; pure .unit
  | .clear s => do NL.clear s; pure .unit
  | .copy d s => do copyNothrow d s; pure .unit
  | .moveAssign s t => do NL.moveAssign s t; pure .unit
  | .destroy s => do NL.destroy s; pure .unit

/-- `q` is an element of an outer list. -/
def IsElem (ns : NS V) (q : Ptr) : Prop := ∃ s X n Y, Alive ns.o s ∧ Contents ns.o s (X ++ (n, q) :: Y)

/-- Preconditions of calls: those of the list operation; a client does not end the lifetime of an element. -/
def Valid (ns : NS V) : NCall V → Prop
  | .outer c => Structural c ∧ LC.Valid ns.o c
  | .inner c => LC.Valid ns.i c ∧ ∀ q, c = .destroy q → ¬ IsElem ns q
  | .insert _ s pos t => Alive ns.o s ∧ IsPos ns.o s pos ∧ Alive ns.i t
  | .pushBack _ s t => Alive ns.o s ∧ Alive ns.i t
  | .pushFront _ s t => Alive ns.o s ∧ Alive ns.i t
  | .erase s pos => LC.Valid ns.o (.erase s pos)
  | .popBack s => LC.Valid ns.o (.popBack s)
  | .popFront s => LC.Valid ns.o (.popFront s)
  | .clear s => LC.Valid ns.o (.clear s)
  | .copy d s => LC.Valid ns.o (.copy d s)
  | .moveAssign s t => LC.Valid ns.o (.moveAssign s t)
  | .destroy s => LC.Valid ns.o (.destroy s)

/-- A fresh error object is passed to every call. -/
def ready (ns : NS V) : NS V := ⟨LC.ready ns.o, ns.i⟩

/-- The state before the program starts. -/
def start (eo : Env (LNode Ptr)) (ei : Env (LNode V)) : NS V := ⟨LC.start eo, LC.start ei⟩

/-- One entry of a history: the call, its result, and whether it reported an error. -/
structure Entry (V : Type) where
  call : NCall V
  res : Res
  failed : Bool

/-- `Hist eo ei h ns`: `ns` is reached from the start by the calls of `h` (latest first). -/
inductive Hist (eo : Env (LNode Ptr)) (ei : Env (LNode V)) : List (Entry V) → NS V → Prop
  | start : Hist eo ei [] (start eo ei)
  | call {h : List (Entry V)} {ns ns' : NS V} {c : NCall V} {r : Res} : Hist eo ei h ns → Valid ns c →
      Runs (exec c) (ready ns) r ns' → Hist eo ei (⟨c, r, ns'.o.err.isSome⟩ :: h) ns'

/-- Reachable program states. -/
def Reach (ns : NS V) : Prop := ∃ eo ei h, Hist eo ei h ns

/-! ### The mathematical specification -/

/-- The lists `qs` are gone. -/
def Gone (A : AState V) (qs : List Ptr) : AState V := fun q => if q ∈ qs then none else A q

/-- The new inner list `q` was constructed from `t`: a copy with new elements, or it took over the elements of `t`. -/
def NewList (copy : Bool) (A : AState V) (t q : Ptr) (A' : AState V) : Prop :=
  A q = none ∧ ∃ b L, A t = some (b, L) ∧
    if copy then ∃ N, NewElems A N (L.map Prod.snd) ∧ A' = upd A q (some (defaultAlloc, N))
    else A' = upd (upd A t (some (b, []))) q (some (b, L))

/-- The new inner list `q` is a copy of `t`. -/
def DeepCopy (A A' : AState V) (t q : Ptr) : Prop :=
  A q = none ∧ ∃ b L N, A t = some (b, L) ∧ NewElems A N (L.map Prod.snd) ∧ A' q = some (defaultAlloc, N)

/-- The effect of a call on the outer lists `O` and the inner lists `I`. -/
def Spec (O : AState Ptr) (I : AState V) (c : NCall V) (r : Res) (failed : Bool) (O' : AState Ptr) (I' : AState V) : Prop :=
  match c with
  | .outer c => LC.Spec O c r failed O' ∧ I' = I
  | .inner c => LC.Spec I c r failed I' ∧ O' = O
  | .insert copy s pos t => ∃ a X Y, O s = some (a, X ++ Y) ∧ pos = posOf s Y ∧
      if failed then r = .pos s ∧ O' = O ∧ I' = I
      else ∃ n q, Unused O n ∧ r = .pos n ∧ O' = upd O s (some (a, X ++ (n, q) :: Y)) ∧ NewList copy I t q I'
  | .pushBack copy s t => ∃ a L, O s = some (a, L) ∧
      if failed then O' = O ∧ I' = I
      else ∃ n q, Unused O n ∧ O' = upd O s (some (a, L ++ [(n, q)])) ∧ NewList copy I t q I'
  | .pushFront copy s t => ∃ a L, O s = some (a, L) ∧
      if failed then O' = O ∧ I' = I
      else ∃ n q, Unused O n ∧ O' = upd O s (some (a, (n, q) :: L)) ∧ NewList copy I t q I'
  | .erase s pos => failed = false ∧ ∃ a X q Y, O s = some (a, X ++ (pos, q) :: Y) ∧ r = .pos (posOf s Y) ∧
      O' = upd O s (some (a, X ++ Y)) ∧ I' = Gone I [q]
  | .popBack s => failed = false ∧ ∃ a L n q, O s = some (a, L ++ [(n, q)]) ∧
      O' = upd O s (some (a, L)) ∧ I' = Gone I [q]
  | .popFront s => failed = false ∧ ∃ a L n q, O s = some (a, (n, q) :: L) ∧
      O' = upd O s (some (a, L)) ∧ I' = Gone I [q]
  | .clear s => failed = false ∧ ∃ a L, O s = some (a, L) ∧ O' = upd O s (some (a, [])) ∧ I' = Gone I (L.map Prod.snd)
  | .copy d s => ∃ a L b M k N, O d = some (a, L) ∧ O s = some (b, M) ∧ k ≤ M.length ∧ (failed = true ↔ k < M.length) ∧
      N.length = k ∧ (N.map Prod.fst).Nodup ∧ (∀ x ∈ N, Unused O x.1) ∧ (N.map Prod.snd).Nodup ∧
      O' = upd O d (some (a, N)) ∧
      (∀ x ∈ M.zip N, DeepCopy I I' x.1.2 x.2.2) ∧                  -- the copied elements
      ∀ q, q ∉ N.map Prod.snd → I' q = Gone I (L.map Prod.snd) q    -- the old elements are destroyed, others unchanged
  | .moveAssign s t => failed = false ∧ ∃ a L M, O s = some (a, L) ∧ O t = some (a, M) ∧
      O' = (if s = t then upd O s (some (a, [])) else upd (upd O s (some (a, M))) t (some (a, []))) ∧
      I' = Gone I (L.map Prod.snd)
  | .destroy s => failed = false ∧ ∃ a L, O s = some (a, L) ∧ O' = upd O s none ∧ I' = Gone I (L.map Prod.snd)

/-- The mathematical lists after a history (latest entry first). -/
inductive SpecRun : List (Entry V) → AState Ptr → AState V → Prop
  | start : SpecRun [] (fun _ => none) (fun _ => none)
  | call {h : List (Entry V)} {O O' : AState Ptr} {I I' : AState V} {c : NCall V} {r : Res} {b : Bool} : SpecRun h O I →
      Spec O I c r b O' I' → SpecRun (⟨c, r, b⟩ :: h) O' I'

/-- The inner list `q` was created by the client as a separate object, and the client has not ended its lifetime. -/
def Separate : List (Entry V) → Ptr → Prop
  | [], _ => False
  | e :: h, q =>
    match e.call, e.res with
    | .inner (.create _), .obj p => q = p ∨ Separate h q
    | .inner (.move _), .obj p => q = p ∨ Separate h q
    | .inner (.destroy p), _ => q ≠ p ∧ Separate h q
    | _, _ => Separate h q

end Nestl.NL
