import Verif.Set.Client
import Verif.RBTree.ModelEqual
set_option autoImplicit false
/-
The client view of the tree with equivalent elements (the multiset interface of `rb_tree`,
nestl/implementation/detail/red_black_tree.hpp): the calls of a set and, in addition, the three operations that insert next to
equivalent elements.  The specification is a sequence of keys for every object.
-/
namespace Nestl.Multi
open Nestl.RB Nestl.Set
variable {K : Type}

/-- Insertions that keep equivalent elements. -/
inductive Mode
  | upper                                -- `t.m_emplace_equal(err, k)`
  | lower                                -- `t.m_insert_equal_lower(err, k)`
  | hint (pos : Ptr)                     -- `t.m_emplace_hint_equal(err, pos, k)`

/-- Calls a client can make. -/
inductive MCall (K : Type)
  | base (c : Call K)
  | equal (m : Mode) (s : Ptr) (k : K)

/-- Results of calls; `idx` is the number of elements before the iterator that was passed to the call (0 if there is
none). -/
structure MRes (K : Type) where
  res : Res K
  idx : Nat

/-- The object and the first iterator argument of a call. -/
def iterArg : MCall K → Option (Ptr × Ptr)
  | .base (.eraseAt s it) => some (s, it)
  | .base (.eraseRange s f _) => some (s, f)
  | .equal (.hint pos) s _ => some (s, pos)
  | _ => none

/-- `distance(begin(), it)` computed by the client before the call. -/
def index (c : MCall K) : M (W K) Nat :=
  match iterArg c with
  | none => pure 0
  | some (s, it) => do
      let L ← walkFrom (← begin_ s) it
      pure L.length

/-- The program executed by a call. -/
def mrun (lt : K → K → Bool) : MCall K → M (W K) (Res K)
  | .base c => exec lt c
  | .equal .upper s k => do pure (.pos (← emplaceEqual lt s k))
  | .equal .lower s k => do pure (.pos (← insertEqualLower lt s k))
  | .equal (.hint pos) s k => do pure (.pos (← emplaceHintEqual lt s pos k))

/-- The call together with the client's computation of `idx`. -/
def mexec (lt : K → K → Bool) (c : MCall K) : M (W K) (MRes K) := do
  let n ← index c
  let r ← mrun lt c
  pure ⟨r, n⟩

/-- A hint is `end()` or an iterator to an element. -/
def HintOf (s pos : Ptr) (L : List (Ptr × K)) : Prop := pos = s ∨ ∃ k, (pos, k) ∈ L

/-- The comparator never says both `a < b` and `b < a`. -/
def Asym (lt : K → K → Bool) : Prop := ∀ a b, lt a b = true → lt b a = false

/-- Preconditions.  Hinted insertion requires an asymmetric comparator (the C++ standard requires a strict weak order). -/
def MValid (lt : K → K → Bool) (w : W K) : MCall K → Prop
  | .base c => Valid w c
  | .equal (.hint pos) s _ => Alive w s ∧ Asym lt ∧ ∃ L, Contents w s L ∧ HintOf s pos L
  | .equal _ s _ => Alive w s

/-- One entry of a history. -/
structure MEntry (K : Type) where
  call : MCall K
  res : MRes K
  failed : Bool

/-- `MHist lt env h w`: `w` is reached from the start by the calls of `h` (latest first). -/
inductive MHist (lt : K → K → Bool) (env : Env (TNode K)) : List (MEntry K) → W K → Prop
  | start : MHist lt env [] (start env)
  | call {h : List (MEntry K)} {w w' : W K} {c : MCall K} {r : MRes K} : MHist lt env h w → MValid lt w c →
      Runs (mexec lt c) (ready w) r w' → MHist lt env (⟨c, r, w'.err.isSome⟩ :: h) w'

/-- Reachable program states. -/
def MReach (lt : K → K → Bool) (w : W K) : Prop := ∃ env h, MHist lt env h w

/-! ### The mathematical specification: sequences of keys -/

/-- Insert after all elements that are not greater. -/
def addUpper (lt : K → K → Bool) (k : K) (L : List K) : List K := L.filter (fun x => !lt k x) ++ k :: L.filter (fun x => lt k x)

/-- Insert before all elements that are not smaller. -/
def addLower (lt : K → K → Bool) (k : K) (L : List K) : List K := L.filter (fun x => lt x k) ++ k :: L.filter (fun x => !lt x k)

/-- Insert as close as possible to the gap between `A` and `B`. -/
def addNear (lt : K → K → Bool) (k : K) (A B : List K) : List K :=
  if A.any (fun x => lt k x) then addUpper lt k (A ++ B)
  else if B.any (fun x => lt x k) then addLower lt k (A ++ B)
  else A ++ k :: B

/-- Effect of a call on a family of sequences of keys. -/
def seqStep (lt : K → K → Bool) (A : Ptr → List K) (e : MEntry K) : Ptr → List K :=
  let n := e.res.idx
  match e.call, e.res.res with
  | .base (.create _), .obj s => put A s []
  | .base (.insert s k), _ =>
      if e.failed ∨ (A s).any (fun x => !lt x k && !lt k x) then A else put A s (addUpper lt k (A s))
  | .base (.eraseKey s k), _ => put A s ((A s).filter (fun x => lt x k || lt k x))
  | .base (.eraseAt s _), _ => put A s ((A s).take n ++ (A s).drop (n + 1))
  | .base (.eraseRange s _ _), .erasedRange _ ks => put A s ((A s).take n ++ (A s).drop (n + ks.length))
  | .base (.clear s), _ => put A s []
  | .base (.copy _ d s), _ => if d = s then A else put A d (if e.failed then [] else A s)
  | .base (.move s), .obj d => put (put A d (A s)) s []
  | .equal .upper s k, _ => if e.failed then A else put A s (addUpper lt k (A s))
  | .equal .lower s k, _ => if e.failed then A else put A s (addLower lt k (A s))
  | .equal (.hint _) s k, _ => if e.failed then A else put A s (addNear lt k ((A s).take n) ((A s).drop n))
  | _, _ => A

/-- The sequences of keys after a history. -/
def seqRun (lt : K → K → Bool) : List (MEntry K) → Ptr → List K
  | [] => fun _ => []
  | e :: h => seqStep lt (seqRun lt h) e

end Nestl.Multi
