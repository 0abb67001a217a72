import Verif.Multi.Client
import Verif.RBTree.ModelSwap
set_option autoImplicit false
/-
The client view of the whole tree interface: the calls of `Verif/Multi/Client.lean` and, in addition, the operations on two
trees (exchange, move assignment), erasing the keys of an array, and the other ways to insert a key that is not present.
-/
namespace Nestl.Full
open Nestl.RB Nestl.Set Nestl.Multi
variable {K : Type}

/-- Insertions of a key unless an equivalent one is present. -/
inductive UMode
  | at (pos : Ptr)                       -- `t.m_insert_unique_at(err, pos, k)`
  | emplace                              -- `t.m_emplace_unique(err, k)`
  | emplaceAt (pos : Ptr)                -- `t.m_emplace_hint_unique(err, pos, k)`

/-- Calls a client can make.  `prop` tells whether the allocator propagates. -/
inductive FCall (K : Type)
  | multi (c : MCall K)
  | swap (prop : Bool) (s t : Ptr)       -- `s.swap(t)`
  | assign (prop : Bool) (d s : Ptr)     -- `d.m_move_assign(s)`
  | eraseKeys (s : Ptr) (ks : List K)    -- `s.erase(first, last)` for an array of keys
  | unique (m : UMode) (s : Ptr) (k : K)

/-- Results of calls. -/
inductive FRes (K : Type)
  | multi (r : MRes K)
  | unit
  | ok (b : Bool)
  | pos (p : Ptr)
  | ins (p : Ptr) (b : Bool)

/-- The result of an insertion: the iterator, and for emplacement also the flag. -/
def uresult (m : UMode) (p : Ptr) (b : Bool) : FRes K :=
  match m with
  | .emplace => .ins p b
  | _ => .pos p

/-- The program executed by a call. -/
def fexec (lt : K → K → Bool) : FCall K → M (W K) (FRes K)
  | .multi c => do pure (.multi (← mexec lt c))
  | .swap prop s t => do swapTrees prop s t; pure .unit
  | .assign prop d s => do pure (.ok (← moveAssign prop d s))
  | .eraseKeys s ks => do eraseKeys lt s ks; pure .unit
  | .unique (.at pos) s k => do pure (.pos (← insertUniqueAt lt s pos k))
  | .unique .emplace s k => do let r ← emplaceUnique lt s k; pure (.ins r.1 r.2)
  | .unique (.emplaceAt pos) s k => do pure (.pos (← emplaceHintUnique lt s pos k))

/-- The object `s` uses the allocator `a`. -/
def UsesAlloc (w : W K) (s : Ptr) (a : Nat) : Prop := ∃ n, w.heap s = some n ∧ n.owner = a

/-- Two objects use equal allocators. -/
def SameAlloc (w : W K) (s t : Ptr) : Prop := ∃ a, UsesAlloc w s a ∧ UsesAlloc w t a

/-- The hint of an insertion is an iterator of the object; with a hint the comparator must be asymmetric. -/
def UValid (lt : K → K → Bool) (w : W K) (s : Ptr) : UMode → Prop
  | .at pos | .emplaceAt pos => Asym lt ∧ ∃ L, Contents w s L ∧ HintOf s pos L
  | .emplace => True

/-- Preconditions.  As for the containers of the C++ standard, only objects with equal allocators are exchanged unless the
allocator is exchanged too. -/
def FValid (lt : K → K → Bool) (w : W K) : FCall K → Prop
  | .multi c => MValid lt w c
  | .swap prop s t => Alive w s ∧ Alive w t ∧ (prop = true ∨ SameAlloc w s t)
  | .assign _ d s => Alive w d ∧ Alive w s
  | .eraseKeys s _ => Alive w s
  | .unique m s _ => Alive w s ∧ UValid lt w s m

/-- One entry of a history. -/
structure FEntry (K : Type) where
  call : FCall K
  res : FRes K
  failed : Bool

/-- `FHist lt env h w`: `w` is reached from the start by the calls of `h` (latest first). -/
inductive FHist (lt : K → K → Bool) (env : Env (TNode K)) : List (FEntry K) → W K → Prop
  | start : FHist lt env [] (start env)
  | call {h : List (FEntry K)} {w w' : W K} {c : FCall K} {r : FRes K} : FHist lt env h w → FValid lt w c →
      Runs (fexec lt c) (ready w) r w' → FHist lt env (⟨c, r, w'.err.isSome⟩ :: h) w'

/-- Reachable program states. -/
def FReach (lt : K → K → Bool) (w : W K) : Prop := ∃ env h, FHist lt env h w

/-- No key of `ks` is equivalent to `x`. -/
def unlike (lt : K → K → Bool) (ks : List K) (x : K) : Bool := ks.all (fun k => lt x k || lt k x)

/-- Effect of a call on a family of sequences of keys. -/
def famStep (lt : K → K → Bool) (A : Ptr → List K) (e : FEntry K) : Ptr → List K :=
  match e.call, e.res with
  | .multi c, .multi r => seqStep lt A ⟨c, r, e.failed⟩
  | .swap _ s t, _ => put (put A s (A t)) t (A s)
  | .assign _ d s, .ok true => put (put A d (A s)) s []
  | .eraseKeys s ks, _ => put A s ((A s).filter (unlike lt ks))
  | .unique _ s k, _ =>
      if e.failed ∨ (A s).any (fun x => !lt x k && !lt k x) then A else put A s (addUpper lt k (A s))
  | _, _ => A

/-- The sequences of keys after a history. -/
def famRun (lt : K → K → Bool) : List (FEntry K) → Ptr → List K
  | [] => fun _ => []
  | e :: h => famStep lt (famRun lt h) e

end Nestl.Full
