set_option autoImplicit false
/-
Several threads that use `shared_ptr`s and `weak_ptr`s to one managed object.  The functions of `shared_count_base`
(shared_ptr.hpp:35-75) are split into their accesses to the memory shared by the threads: `++m_use_count` is a load and a
store.  The steps of the threads are interleaved arbitrarily; memory is sequentially consistent.  (In C++ unsynchronised
accesses are undefined behaviour, so the model is optimistic: it allows fewer outcomes than the code has.)

Simplifications: one managed object, without members of its own; every `shared_ptr` and `weak_ptr` variable belongs to one
thread, which alone uses it; a thread may hand a variable over to another one through a mailbox, which is synchronised
and does not touch the counts (a move).
-/
namespace Nestl.Th

/-- What goes wrong. -/
inductive Fault where
  /-- the control block is accessed after it has been deallocated -/
  | freedBlock
  /-- the managed object is accessed after it has been destroyed -/
  | deadObject
  /-- the managed object is destroyed a second time -/
  | destroyedTwice
  /-- an assertion fails -/
  | assertion
  deriving DecidableEq

/-- The memory shared by the threads: the counters of `shared_count_base` (shared_ptr.hpp:78-79), how often the managed object
has been destroyed (shared_ptr.hpp:106-110) and the block been deallocated (shared_ptr.hpp:112-118), and the `shared_ptr`s and
`weak_ptr`s in the mailbox. -/
structure Mem where
  use : Int
  weak : Int
  died : Nat
  freed : Nat
  boxSh : Nat
  boxWk : Nat
  deriving DecidableEq

/-- Where a thread is. -/
inductive Pc where
  /-- between two calls -/
  | idle
  /-- `*p` (shared_ptr.hpp:470-475) -/
  | deref
  /-- `add_ref` (shared_ptr.hpp:41-45): the assertion, the load and the store of `++m_use_count` -/
  | add0 | add1 | add2 (r : Int)
  /-- `release` (shared_ptr.hpp:47-59): the assertion, the load and the store of `--m_use_count`, the test, `destroy_value`,
  the test of `m_weak_use_count`, `destroy_self` -/
  | rel0 | rel1 | rel2 (r : Int) | rel3 | rel4 | rel5 | rel6
  /-- `weak_add_ref` (shared_ptr.hpp:61-65) -/
  | wadd0 | wadd1 | wadd2 (r : Int)
  /-- `weak_release` (shared_ptr.hpp:67-75): the assertion, the load and the store of `--m_weak_use_count`, the two tests,
  `destroy_self` -/
  | wrel0 | wrel1 | wrel2 (r : Int) | wrel3 | wrel4 | wrel5
  /-- `use_count` (shared_ptr.hpp:35-39): of a `shared_ptr`, or to decide whether a `weak_ptr` has expired -/
  | count | expired
  /-- after `!expired()` and before `lock()` -/
  | alive
  deriving DecidableEq

/-- A thread: where it is, and how many `shared_ptr`s and `weak_ptr`s to the object it owns. -/
structure Thread where
  pc : Pc
  sh : Nat
  wk : Nat
  deriving DecidableEq

/-- The calls. -/
inductive Op where
  /-- `shared_ptr q(p)` (shared_ptr.hpp:361-370) -/
  | copy
  /-- `~shared_ptr` (shared_ptr.hpp:393-400) -/
  | drop
  /-- `*p` -/
  | deref
  /-- `p.use_count()` (shared_ptr.hpp:485-488) -/
  | count
  /-- `weak_ptr q(p)` (shared_ptr.hpp:232-252) -/
  | toWeak
  /-- `~weak_ptr` (shared_ptr.hpp:266-272) -/
  | dropWeak
  /-- `q.lock()` (shared_ptr.hpp:330-333) -/
  | lock
  /-- `if (!q.expired()) q.lock()` (shared_ptr.hpp:315-333) -/
  | lockIf
  /-- hand a `shared_ptr` or a `weak_ptr` over, take one -/
  | put | get | putWeak | getWeak
  deriving DecidableEq

/-- The begin of a call; `none` if the thread lacks a variable it needs. -/
def begin_ : Op → Mem → Thread → Option (Mem × Thread)
  | .copy, m, t => if 1 ≤ t.sh then some (m, { t with pc := .add0 }) else none
  | .drop, m, t => if 1 ≤ t.sh then some (m, { t with pc := .rel0, sh := t.sh - 1 }) else none
  | .deref, m, t => if 1 ≤ t.sh then some (m, { t with pc := .deref }) else none
  | .count, m, t => if 1 ≤ t.sh + t.wk then some (m, { t with pc := .count }) else none
  | .toWeak, m, t => if 1 ≤ t.sh + t.wk then some (m, { t with pc := .wadd0 }) else none
  | .dropWeak, m, t => if 1 ≤ t.wk then some (m, { t with pc := .wrel0, wk := t.wk - 1 }) else none
  | .lock, m, t => if 1 ≤ t.wk then some (m, { t with pc := .add0 }) else none
  | .lockIf, m, t => if 1 ≤ t.wk then some (m, { t with pc := .expired }) else none
  | .put, m, t => if 1 ≤ t.sh then some ({ m with boxSh := m.boxSh + 1 }, { t with sh := t.sh - 1 }) else none
  | .get, m, t => if 1 ≤ m.boxSh then some ({ m with boxSh := m.boxSh - 1 }, { t with sh := t.sh + 1 }) else none
  | .putWeak, m, t => if 1 ≤ t.wk then some ({ m with boxWk := m.boxWk + 1 }, { t with wk := t.wk - 1 }) else none
  | .getWeak, m, t => if 1 ≤ m.boxWk then some ({ m with boxWk := m.boxWk - 1 }, { t with wk := t.wk + 1 }) else none

/-- An access to the control block. -/
def onBlock {α : Type} (m : Mem) (r : Except Fault α) : Except Fault α := if m.freed = 0 then r else .error .freedBlock

/-- An assertion. -/
def check {α : Type} (b : Bool) (r : Except Fault α) : Except Fault α := if b then r else .error .assertion

/-- One access to the shared memory by a thread in the middle of a call: shared_ptr.hpp:35-75, 106-118, 470-475. -/
def micro (m : Mem) (t : Thread) : Except Fault (Mem × Thread) :=
  match t.pc with
  | .idle => .ok (m, t)
  | .deref => if m.died = 0 then .ok (m, { t with pc := .idle }) else .error .deadObject
  | .add0 => onBlock m (check (0 ≤ m.use) (.ok (m, { t with pc := .add1 })))
  | .add1 => onBlock m (.ok (m, { t with pc := .add2 m.use }))
  | .add2 r => onBlock m (.ok ({ m with use := r + 1 }, { t with pc := .idle, sh := t.sh + 1 }))
  | .rel0 => onBlock m (check (0 < m.use) (.ok (m, { t with pc := .rel1 })))
  | .rel1 => onBlock m (.ok (m, { t with pc := .rel2 m.use }))
  | .rel2 r => onBlock m (.ok ({ m with use := r - 1 }, { t with pc := .rel3 }))
  | .rel3 => onBlock m (.ok (m, { t with pc := if m.use = 0 then .rel4 else .idle }))
  | .rel4 => onBlock m (if m.died = 0 then .ok ({ m with died := m.died + 1 }, { t with pc := .rel5 }) else .error .destroyedTwice)
  | .rel5 => onBlock m (.ok (m, { t with pc := if m.weak = 0 then .rel6 else .idle }))
  | .rel6 => onBlock m (.ok ({ m with freed := m.freed + 1 }, { t with pc := .idle }))
  | .wadd0 => onBlock m (check (0 ≤ m.weak) (.ok (m, { t with pc := .wadd1 })))
  | .wadd1 => onBlock m (.ok (m, { t with pc := .wadd2 m.weak }))
  | .wadd2 r => onBlock m (.ok ({ m with weak := r + 1 }, { t with pc := .idle, wk := t.wk + 1 }))
  | .wrel0 => onBlock m (check (0 < m.weak) (.ok (m, { t with pc := .wrel1 })))
  | .wrel1 => onBlock m (.ok (m, { t with pc := .wrel2 m.weak }))
  | .wrel2 r => onBlock m (.ok ({ m with weak := r - 1 }, { t with pc := .wrel3 }))
  | .wrel3 => onBlock m (.ok (m, { t with pc := if m.weak = 0 then .wrel4 else .idle }))
  | .wrel4 => onBlock m (.ok (m, { t with pc := if m.use = 0 then .wrel5 else .idle }))
  | .wrel5 => onBlock m (.ok ({ m with freed := m.freed + 1 }, { t with pc := .idle }))
  | .count => onBlock m (check (0 ≤ m.use) (.ok (m, { t with pc := .idle })))
  | .expired => onBlock m (check (0 ≤ m.use) (.ok (m, { t with pc := if m.use = 0 then .idle else .alive })))
  | .alive => .ok (m, { t with pc := .add0 })

/-! ### Synchronisation -/

/-- What keeps the threads from disturbing each other. -/
inductive Policy where
  /-- nothing: the code as it is -/
  | none
  /-- `++` and `--` of a counter are atomic, as if the counters were `std::atomic<long>` -/
  | counters
  /-- a lock is held during every function of the control block -/
  | functions
  deriving DecidableEq

/-- Between the load and the store of `++` or `--`. -/
def Pc.half : Pc → Bool
  | .add2 _ | .rel2 _ | .wadd2 _ | .wrel2 _ => true
  | _ => false

/-- In a function of the control block. -/
def Pc.inside : Pc → Bool
  | .idle | .deref | .alive => false
  | _ => true

/-- A thread may take a step from `t` to `t'` when the other threads are at `us`. -/
def May : Policy → List Thread → Thread → Thread → Prop
  | .none, _, _, _ => True
  | .counters, us, _, _ => ∀ u ∈ us, u.pc.half = false
  | .functions, us, t, t' => (t.pc.inside = false ∧ t'.pc.inside = false) ∨ ∀ u ∈ us, u.pc.inside = false

/-- The memory and the threads. -/
structure Cfg where
  mem : Mem
  ts : List Thread

/-- After `make_shared` (shared_ptr.hpp:497-531) in the first of `n + 1` threads. -/
def start (n : Nat) : Cfg :=
  { mem := { use := 1, weak := 0, died := 0, freed := 0, boxSh := 0, boxWk := 0 }
    ts := { pc := .idle, sh := 1, wk := 0 } :: List.replicate n { pc := .idle, sh := 0, wk := 0 } }

/-- A step of one thread; `ok i op t`: the program of thread `i` may make the call `op` in state `t`. -/
inductive Step (pol : Policy) (ok : Nat → Op → Thread → Prop) : Cfg → Cfg → Prop
  | call {m m' : Mem} {l r : List Thread} {t t' : Thread} {op : Op} : t.pc = .idle → ok l.length op t →
      begin_ op m t = some (m', t') → May pol (l ++ r) t t' → Step pol ok ⟨m, l ++ t :: r⟩ ⟨m', l ++ t' :: r⟩
  | run {m m' : Mem} {l r : List Thread} {t t' : Thread} : t.pc ≠ .idle → micro m t = .ok (m', t') →
      May pol (l ++ r) t t' → Step pol ok ⟨m, l ++ t :: r⟩ ⟨m', l ++ t' :: r⟩

/-- The configurations reached by interleaved steps. -/
inductive Reach (pol : Policy) (ok : Nat → Op → Thread → Prop) (n : Nat) : Cfg → Prop
  | start : Reach pol ok n (start n)
  | step {c c' : Cfg} : Reach pol ok n c → Step pol ok c c' → Reach pol ok n c'

/-- The next step of some thread goes wrong, and the thread may take it. -/
def Faulty (pol : Policy) (c : Cfg) (f : Fault) : Prop :=
  ∃ l t r, c.ts = l ++ t :: r ∧ t.pc ≠ .idle ∧ micro c.mem t = .error f ∧ May pol (l ++ r) t t

/-- All calls have ended. -/
def Quiet (c : Cfg) : Prop := ∀ t ∈ c.ts, t.pc = .idle

/-- The number of `shared_ptr`s to the object. -/
def owners (c : Cfg) : Nat := (c.ts.map Thread.sh).sum + c.mem.boxSh

/-- The number of `weak_ptr`s to the object. -/
def watchers (c : Cfg) : Nat := (c.ts.map Thread.wk).sum + c.mem.boxWk

end Nestl.Th
