import Verif.Own.Model
set_option autoImplicit false
/-
The client view of trees with a comparator each: histories of calls and what they mean.
-/
namespace Nestl.Own
open Nestl.RB Nestl.Set Nestl.Multi Nestl.Full
variable {K : Type}

/-- The state before any call. -/
def ostart (dflt : Less K) (env : Env (TNode K)) : OW K := ⟨start env, fun _ => dflt⟩

/-- A call starts with an error object that holds no error. -/
def oready (x : OW K) : OW K := ⟨ready x.w, x.cmp⟩

/-- The comparator used by a call: that of the object in which keys are compared. -/
def used (dflt : Less K) (C : Ptr → Less K) (c : FCall K) : Less K :=
  match c.keyed with
  | some s => C s
  | none => dflt

/-- Preconditions: comparators are strict weak orders; otherwise as in `Full/Client.lean`.  Move assignment that the
allocators do not permit is excluded unless the two objects have the same comparator (see `refused_move_assign_breaks_order`
in `Own/Props.lean`). -/
def OValid (dflt : Less K) (x : OW K) : OCall K → Prop
  | .create comp _ => SWO comp
  | .on c => FValid (used dflt x.cmp c) x.w c ∧
      match c with
      | .assign prop d s => prop = true ∨ SameAlloc x.w d s ∨ x.cmp d = x.cmp s
      | _ => True

/-- One entry of a history: the call, the comparator it used, the result, and whether it failed. -/
structure OEntry (K : Type) where
  call : OCall K
  lt : Less K
  res : FRes K
  failed : Bool

/-- `OHist dflt env h x`: `x` is reached from the start by the calls of `h` (latest first). -/
inductive OHist (dflt : Less K) (env : Env (TNode K)) : List (OEntry K) → OW K → Prop
  | start : OHist dflt env [] (ostart dflt env)
  | create {h : List (OEntry K)} {x x' : OW K} {comp : Less K} {a : Nat} {r : FRes K} : OHist dflt env h x →
      OValid dflt x (.create comp a) → Runs (oexec dflt (.create comp a)) (oready x) r x' →
      OHist dflt env (⟨.create comp a, dflt, r, x'.w.err.isSome⟩ :: h) x'
  | call {h : List (OEntry K)} {x x' : OW K} {c : FCall K} {r : FRes K} : OHist dflt env h x → OValid dflt x (.on c) →
      Runs (oexec dflt (.on c)) (oready x) r x' →
      OHist dflt env (⟨.on c, used dflt x.cmp c, r, x'.w.err.isSome⟩ :: h) x'

/-- Reachable program states. -/
def OReach (dflt : Less K) (x : OW K) : Prop := ∃ env h, OHist dflt env h x

/-- The call without the comparator of a constructor. -/
def OCall.plain : OCall K → FCall K
  | .create _ a => .multi (.base (.create a))
  | .on c => c

/-- The sequences of keys after a history: every call acts on them as described in `Full/Client.lean`, with the comparator of
the object it is made on. -/
def ownRun : List (OEntry K) → Ptr → List K
  | [] => fun _ => []
  | e :: h => famStep e.lt (ownRun h) ⟨e.call.plain, e.res, e.failed⟩

/-- What a call does to the comparators `C` of the objects. -/
def CmpStep (dflt : Less K) (C : Ptr → Less K) (c : OCall K) (r : FRes K) (failed : Bool) (C' : Ptr → Less K) : Prop :=
  match c, r with
  | .create comp _, .multi ⟨.obj s, _⟩ => C' = put C s comp
  | .on (.multi (.base (.create _))), .multi ⟨.obj s, _⟩ => C' = put C s dflt
  | .on (.multi (.base (.copy _ d s))), _ => C' = put C d (C s) ∨ failed = true ∧ C' = C
  | .on (.multi (.base (.move s))), .multi ⟨.obj d, _⟩ => C' = put C d (C s)
  | .on (.swap _ s t), _ => C' = put (put C s (C t)) t (C s)
  | .on (.assign _ d s), _ => C' = put C d (C s)
  | _, _ => C' = C

end Nestl.Own
