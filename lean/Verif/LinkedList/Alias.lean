import Verif.LinkedList.Client
import Verif.Alias.Base
set_option autoImplicit false
/-
Calls of list functions whose value argument is a reference to an element of a list, possibly of the list that is modified:
`l.push_back_nothrow(err, l.front())`.  The argument is a `const T&`; the element is read when the constructor of the new
element runs, whatever has happened to the list before.
-/
namespace Nestl.LL
variable {V : Type}

/-- Reading through a reference to the element in the node `p` (`list_node::m_value`, list.hpp:160-199): a fault if the node has
been released or the element destroyed. -/
def readRef (p : Ptr) : M (W V) V := do
  match (← rd p).val with
  | some v => pure v
  | none => fault .rawRead

/-- `create_node(err, ref)`: list.hpp:1270-1290; the copy constructor reads its argument (class_operations.hpp:32-37). -/
def createNodeRef (s p : Ptr) : M (W V) Ptr := do
  let a := (← rd s).owner
  let n ← allocCell fun junk => { junk with val := none, owner := a }
  if (← hasErr) then pure .null else do
  let v ← readRef p
  if (← tryCtor) then
    match (← rd n).val with
    | some _ => fault .overwriteLive
    | none => modCell n fun c => { c with val := some v }
  else pure ()
  if (← hasErr) then
    putNode s n            -- ~allocGuard
    pure .null
  else pure n              -- allocGuard.release()

/-- `emplace_nothrow(err, pos, ref)`: list.hpp:951-968; `insert_nothrow(err, pos, ref)`: list.hpp:901-915. -/
def emplaceRef (s pos p : Ptr) : M (W V) Ptr := do
  let n ← createNodeRef s p
  if (← hasErr) then end_ s else do
  initEmpty n
  checkNode pos
  inject n pos
  checkNode n
  pure n

/-- `insert_nothrow(err, pos, count, ref)`: list.hpp:917-932. -/
def insertNRef (s pos p : Ptr) : Nat → M (W V) Unit
  | 0 => pure ()
  | n + 1 => do
    let pos ← emplaceRef s pos p
    if (← hasErr) then pure () else insertNRef s pos p n

/-- `push_back_nothrow(err, ref)` / `emplace_back_nothrow(err, ref)`: list.hpp:997-1019. -/
def pushBackRef (s p : Ptr) : M (W V) Unit := do
  let _ ← emplaceRef s (← end_ s) p
  pure ()

/-- `push_front_nothrow(err, ref)` / `emplace_front_nothrow(err, ref)`: list.hpp:1028-1050. -/
def pushFrontRef (s p : Ptr) : M (W V) Unit := do
  let _ ← emplaceRef s (← begin_ s) p
  pure ()

/-- The loop of `assign_nothrow(err, n, ref)`: list.hpp:721-730. -/
def assignLoopRef (s p : Ptr) : Nat → M (W V) Unit
  | 0 => pure ()
  | n + 1 => do
    pushBackRef s p
    if (← hasErr) then pure () else assignLoopRef s p n

/-- `assign_nothrow(err, n, ref)`: list.hpp:714-731.  The former elements are kept in `tmp` until the end of the function. -/
def assignNRef (s : Ptr) (n : Nat) (p : Ptr) : M (W V) Unit := do
  let tmp ← newList defaultAlloc
  swap tmp s
  assignLoopRef s p n
  destroyList tmp

/-! ### The node `p` during these calls -/

/-- The node `p` holds the value `v`. -/
abbrev Holds (p : Ptr) (v : V) : W V → Prop := CellIs p fun c => c.val = some v

variable {p : Ptr} {v : V}

theorem Keeps.getNext {I : W V → Prop} (q : Ptr) : Keeps I (getNext q : M (W V) Ptr) := .bind (.rd _) fun _ => .pure _
theorem Keeps.getPrev {I : W V → Prop} (q : Ptr) : Keeps I (getPrev q : M (W V) Ptr) := .bind (.rd _) fun _ => .pure _
theorem Keeps.setNext (q r : Ptr) : Keeps (Holds p v) (setNext q r) := .modCell _ _ fun _ h => h
theorem Keeps.setPrev (q r : Ptr) : Keeps (Holds p v) (setPrev q r) := .modCell _ _ fun _ h => h

theorem Keeps.checkNode {I : W V → Prop} (q : Ptr) : Keeps I (checkNode q : M (W V) Unit) := by
  unfold LL.checkNode
  repeat' first
    | exact Keeps.getPrev _ | exact Keeps.getNext _ | exact Keeps.assertM _
    | refine Keeps.bind ?_ fun _ => ?_

/-- Decompose a program into steps that keep the node. -/
macro "keep" : tactic => `(tactic| repeat' first
  | exact Keeps.getPrev _ | exact Keeps.getNext _ | exact Keeps.assertM _ | exact Keeps.setNext _ _ | exact Keeps.setPrev _ _
  | exact Keeps.checkNode _ | exact Keeps.pure _ | exact Keeps.rd _ | exact Keeps.fault _ | exact Keeps.hasErr
  | refine Keeps.ite ?_ ?_
  | refine Keeps.bind ?_ fun _ => ?_)

theorem Keeps.initEmpty (q : Ptr) : Keeps (Holds p v) (initEmpty q) := by unfold LL.initEmpty; keep
theorem Keeps.inject (q r : Ptr) : Keeps (Holds p v) (inject q r) := by unfold LL.inject; keep
theorem Keeps.swapNodes (q r : Ptr) : Keeps (Holds p v) (swapNodes q r) := by unfold LL.swapNodes; keep
theorem Keeps.end_ {I : W V → Prop} (q : Ptr) : Keeps I (end_ q : M (W V) Ptr) := by unfold LL.end_; keep
theorem Keeps.begin_ {I : W V → Prop} (q : Ptr) : Keeps I (begin_ q : M (W V) Ptr) := by unfold LL.begin_; keep

theorem Keeps.newList (hp : ∀ i, p ≠ .stk i) (a : Nat) : Keeps (Holds p v) (newList a) := by
  unfold LL.newList
  exact .bind (.newObj _ hp) fun _ => .bind (Keeps.initEmpty _) fun _ => .pure _

theorem Keeps.putNode {s q : Ptr} (hq : q ≠ p) : Keeps (Holds p v) (putNode s q : M (W V) Unit) := by
  unfold LL.putNode
  exact .bind (.rd _) fun _ => .freeCell _ hq

/-- The continuation of `create_node` after a successful allocation. -/
theorem Agree.tail {s q : Ptr} (hq : q ≠ p) : Agree (Holds p v)
    (do
      let v ← readRef p
      if (← tryCtor) then
        match (← rd q).val with
        | some _ => fault .overwriteLive
        | none => modCell q fun c => { c with val := some v }
      else pure ()
      if (← hasErr) then
        putNode s q
        pure .null
      else pure q : M (W V) Ptr)
    (do
      if (← tryCtor) then
        match (← rd q).val with
        | some _ => fault .overwriteLive
        | none => modCell q fun c => { c with val := some v }
      else pure ()
      if (← hasErr) then
        putNode s q
        pure .null
      else pure q : M (W V) Ptr) := by
  intro w hi
  obtain ⟨h0, c, hc, hv⟩ := hi
  have e : Runs (readRef p) w v w := by
    have : wp (readRef p : M (W V) V) w fun a w' => a = v ∧ w' = w := by
      unfold readRef
      rw [wp_bind, wp_rd hc h0, hv]
      exact ⟨rfl, rfl⟩
    obtain ⟨a, w', h, rfl, rfl⟩ := this.runs
    exact h
  exact run_bind e

theorem Agree.createNode (s : Ptr) : Agree (Holds p v) (createNodeRef s p) (createNode s v) := by
  unfold createNodeRef LL.createNode
  refine .bind .rfl' (.rd _) fun _ => .steps .rfl' (J := fun q w => Holds p v w ∧ q ≠ p) (fun w q w' hi h => hi.alloc _ h) ?_
  intro q w hi
  exact Agree.bind (I := Holds p v) .rfl' .hasErr (fun _ => .ite .rfl' (Agree.tail hi.2)) w hi.1

theorem Keeps.createNode (s : Ptr) (u : V) : Keeps (Holds p v) (createNode s u) := by
  unfold LL.createNode
  refine .bind (.rd _) fun _ => ?_
  intro w a w' hi h
  obtain ⟨q, w1, h1, h2⟩ := runs_steps h
  obtain ⟨hi, hq⟩ := hi.alloc _ h1
  revert h2
  have hrest : Keeps (Holds p v) (do
      if (← hasErr) then
        LL.putNode s q
        pure Ptr.null
      else pure q : M (W V) Ptr) := .bind .hasErr fun _ => .ite (.bind (Keeps.putNode hq) fun _ => .pure _) (.pure _)
  refine Keeps.bind .hasErr (fun _ => .ite (.pure _) (.bind .tryCtor fun _ => .ite (.bind (.rd _) fun c => ?_) hrest)) _ _ _ hi
  cases c.val
  · refine .bind ?_ fun _ => hrest
    intro w a w' hi h
    obtain ⟨h0, c, hc, hP⟩ := hi
    unfold Runs modCell at h
    split at h
    · cases h
    · split at h <;> cases h
      exact ⟨h0, c, by simp [upd_other _ _ (Ne.symm hq), hc], hP⟩
  · exact .bind (.fault _) fun _ => hrest

theorem Agree.emplace (s pos : Ptr) : Agree (Holds p v) (emplaceRef s pos p) (emplace s pos v) :=
  .bind (Agree.createNode s) (Keeps.createNode _ _) fun _ => .rfl'

theorem Keeps.emplace (s pos : Ptr) (u : V) : Keeps (Holds p v) (emplace s pos u) :=
  .bind (Keeps.createNode _ _) fun _ => .bind .hasErr fun _ => .ite (Keeps.end_ _) (.bind (Keeps.initEmpty _) fun _ =>
    .bind (Keeps.checkNode _) fun _ => .bind (Keeps.inject _ _) fun _ => .bind (Keeps.checkNode _) fun _ => .pure _)

theorem Agree.insertN (s pos : Ptr) (n : Nat) : Agree (Holds p v) (insertNRef s pos p n) (insertN s pos v n) := by
  induction n generalizing pos with
  | zero => exact .rfl'
  | succ n ih => exact .bind (Agree.emplace _ _) (Keeps.emplace _ _ _) fun _ => .bind .rfl' .hasErr fun _ => .ite .rfl' (ih _)

theorem Agree.pushBack (s : Ptr) : Agree (Holds p v) (pushBackRef s p) (pushBack s v) :=
  .bind .rfl' (Keeps.end_ _) fun _ => .bind (Agree.emplace _ _) (Keeps.emplace _ _ _) fun _ => .rfl'

theorem Agree.pushFront (s : Ptr) : Agree (Holds p v) (pushFrontRef s p) (pushFront s v) :=
  .bind .rfl' (Keeps.begin_ _) fun _ => .bind (Agree.emplace _ _) (Keeps.emplace _ _ _) fun _ => .rfl'

theorem Keeps.pushBack (s : Ptr) (u : V) : Keeps (Holds p v) (pushBack s u) :=
  .bind (Keeps.end_ _) fun _ => .bind (Keeps.emplace _ _ _) fun _ => .pure _

theorem Agree.assignLoop (s : Ptr) (n : Nat) : Agree (Holds p v) (assignLoopRef s p n) (assignLoop s v n) := by
  induction n with
  | zero => exact .rfl'
  | succ n ih => exact .bind (Agree.pushBack _) (Keeps.pushBack _ _) fun _ => .bind .rfl' .hasErr fun _ => .ite .rfl' ih

theorem Keeps.assignLoop (s : Ptr) (u : V) (n : Nat) : Keeps (Holds p v) (assignLoop s u n) := by
  induction n with
  | zero => exact .pure _
  | succ n ih => exact .bind (Keeps.pushBack _ _) fun _ => .bind .hasErr fun _ => .ite (.pure _) ih

theorem Agree.assignN (hp : ∀ i, p ≠ .stk i) (s : Ptr) (n : Nat) : Agree (Holds p v) (assignNRef s n p) (assignN s n v) :=
  .bind .rfl' (Keeps.newList hp _) fun _ => .bind .rfl' (Keeps.swapNodes _ _) fun _ =>
    .bind (Agree.assignLoop _ _) (Keeps.assignLoop _ _ _) fun _ => .rfl'

end Nestl.LL
