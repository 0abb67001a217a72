/-
Common execution model shared by all the container models.

* `M σ α`  : state + fault + divergence.  `some (.ok (a, s'))` is a normal return, `some (.error f)` is
  undefined behaviour or a failed assertion, `none` is divergence.
* `wp m s Q` : total correctness - `m` started in `s` terminates without fault in a state satisfying `Q`.
* `World N`  : memory, adversarial environment and the in/out error object.
-/
namespace Nestl

/-- Every way an execution can go wrong.  None of these is a value the C++ program can observe: they
are undefined behaviour (or a failed `assert`), so all main theorems show that none is ever reached. -/
inductive Fault
  | nullDeref        -- `*p` with `p == nullptr`
  | wild             -- `*p` with `p` pointing to storage that is not allocated (dangling)
  | assertFail       -- `assert(...)` / `NESTL_CHECK_LIST_NODE` fired
  | rawRead          -- reading / destroying an object whose lifetime has not begun or has ended
  | overwriteLive    -- constructing on top of a live object
  | freeLive         -- deallocating storage that still holds a live object
  | wrongAllocator   -- deallocating through an allocator that did not allocate the block
  | badFree          -- deallocating something that is not an allocated block
  | outOfBounds      -- access beyond the end of an array
  | stackOverflow    -- more nested calls than the stack has room for (only in programs with a bounded stack)
deriving DecidableEq, Repr

/-- Execution monad: state, faults, divergence. -/
abbrev M (σ α : Type) := StateT σ (ExceptT Fault Option) α

/-- Total correctness weakest precondition. -/
def wp {σ α} (m : M σ α) (s : σ) (Q : α → σ → Prop) : Prop :=
  match m s with
  | some (.ok (a, s')) => Q a s'
  | _ => False

/-- The run of `m` from `s` ends in the fault `f`. -/
def Faults {σ α} (m : M σ α) (s : σ) (f : Fault) : Prop := m s = some (.error f)

/-- The run of `m` from `s` returns `a` in `s'`. -/
def Runs {σ α} (m : M σ α) (s : σ) (a : α) (s' : σ) : Prop := m s = some (.ok (a, s'))

/-- Raise a fault. -/
def fault {σ α} (f : Fault) : M σ α := fun _ => some (.error f)

/-- `OperationError` values (errc_based_error.hpp / exception_ptr_error.hpp): only the reason matters. -/
inductive Err
  | badAlloc       -- `build_bad_alloc(err)`
  | ctorFailed     -- the element constructor / assignment reported an error (threw)
  | lengthError    -- `build_length_error(err)`
deriving DecidableEq, Repr

/-- Addresses.  `stk i` are the container objects themselves (automatic storage: sentinels, headers);
`dyn i` is allocator memory. -/
inductive Ptr
  | null
  | stk (i : Nat)
  | dyn (i : Nat)
deriving DecidableEq, Repr, Inhabited

/-- The adversary: decides addresses and failures of allocations, failures of element constructors,
and the indeterminate initial content of freshly allocated cells. -/
structure Env (N : Type) where
  /-- answer to the k-th allocation request: `none` = out of memory -/
  addr : Nat → Option Nat
  /-- does the k-th element construction/assignment succeed? -/
  ctor : Nat → Bool
  /-- indeterminate content of the cell returned by the k-th allocation -/
  junk : Nat → N

/-- Program state. -/
structure World (N : Type) where
  heap : Ptr → Option N
  env : Env N
  nAlloc : Nat          -- number of allocation requests so far
  nCtor : Nat           -- number of element constructions attempted so far
  nCmp : Nat            -- number of comparator calls so far
  sp : Nat              -- next fresh automatic object
  err : Option Err      -- the `OperationError&` object of the current call

/-- Heap update. -/
def upd {N : Type} (h : Ptr → Option N) (p : Ptr) (c : Option N) : Ptr → Option N :=
  fun q => if q = p then c else h q

@[simp] theorem upd_same {N} (h : Ptr → Option N) (p c) : upd h p c p = c := by simp [upd]
theorem upd_other {N} (h : Ptr → Option N) {p q : Ptr} (c) (hne : q ≠ p) : upd h p c q = h q := by
  simp [upd, hne]
theorem upd_apply {N} (h : Ptr → Option N) (p q : Ptr) (c) :
    upd h p c q = if q = p then c else h q := rfl
@[simp] theorem upd_upd {N} (h : Ptr → Option N) (p c d) : upd (upd h p c) p d = upd h p d := by
  funext q; by_cases hq : q = p <;> simp [upd, hq]
theorem upd_self {N} (h : Ptr → Option N) (p c) (hc : h p = c) : upd h p c = h := by
  funext q; by_cases hq : q = p <;> simp [upd, hq, hc]
theorem upd_comm {N} (h : Ptr → Option N) {p q : Ptr} (c d) (hne : p ≠ q) :
    upd (upd h p c) q d = upd (upd h q d) p c := by
  funext r; by_cases h1 : r = p <;> by_cases h2 : r = q <;> simp_all [upd]

section prims
variable {N : Type}

/-- Replace the memory. -/
def World.setHeap (w : World N) (h : Ptr → Option N) : World N := { w with heap := h }

@[simp] theorem World.setHeap_heap (w : World N) (h) : (w.setHeap h).heap = h := rfl
@[simp] theorem World.setHeap_setHeap (w : World N) (h h') : (w.setHeap h).setHeap h' = w.setHeap h' := rfl
@[simp] theorem World.setHeap_self (w : World N) : w.setHeap w.heap = w := rfl
@[simp] theorem World.setHeap_env (w : World N) (h) : (w.setHeap h).env = w.env := rfl
@[simp] theorem World.setHeap_nAlloc (w : World N) (h) : (w.setHeap h).nAlloc = w.nAlloc := rfl
@[simp] theorem World.setHeap_nCtor (w : World N) (h) : (w.setHeap h).nCtor = w.nCtor := rfl
@[simp] theorem World.setHeap_nCmp (w : World N) (h) : (w.setHeap h).nCmp = w.nCmp := rfl
@[simp] theorem World.setHeap_sp (w : World N) (h) : (w.setHeap h).sp = w.sp := rfl
@[simp] theorem World.setHeap_err (w : World N) (h) : (w.setHeap h).err = w.err := rfl

/-- Count `n` more comparator calls. -/
def World.addCmp (w : World N) (n : Nat) : World N := { w with nCmp := w.nCmp + n }

@[simp] theorem World.addCmp_heap (w : World N) (n) : (w.addCmp n).heap = w.heap := rfl
@[simp] theorem World.addCmp_env (w : World N) (n) : (w.addCmp n).env = w.env := rfl
@[simp] theorem World.addCmp_err (w : World N) (n) : (w.addCmp n).err = w.err := rfl
@[simp] theorem World.addCmp_sp (w : World N) (n) : (w.addCmp n).sp = w.sp := rfl
@[simp] theorem World.addCmp_nAlloc (w : World N) (n) : (w.addCmp n).nAlloc = w.nAlloc := rfl
@[simp] theorem World.addCmp_nCtor (w : World N) (n) : (w.addCmp n).nCtor = w.nCtor := rfl
@[simp] theorem World.addCmp_nCmp (w : World N) (n) : (w.addCmp n).nCmp = w.nCmp + n := rfl
@[simp] theorem World.addCmp_zero (w : World N) : w.addCmp 0 = w := rfl
@[simp] theorem World.addCmp_addCmp (w : World N) (n m) : (w.addCmp n).addCmp m = w.addCmp (n + m) := by
  simp [World.addCmp, Nat.add_assoc]

/-- `w'` is a later state of the same program: same environment, same set of automatic objects,
counters only grow. -/
structure Ext (w w' : World N) : Prop where
  env : w'.env = w.env
  sp : w'.sp = w.sp
  nAlloc : w.nAlloc ≤ w'.nAlloc
  nCtor : w.nCtor ≤ w'.nCtor
  nCmp : w.nCmp ≤ w'.nCmp

theorem Ext.refl (w : World N) : Ext w w := ⟨rfl, rfl, Nat.le_refl _, Nat.le_refl _, Nat.le_refl _⟩
theorem Ext.trans {w w' w'' : World N} (h : Ext w w') (h' : Ext w' w'') : Ext w w'' :=
  ⟨h'.env.trans h.env, h'.sp.trans h.sp, Nat.le_trans h.nAlloc h'.nAlloc, Nat.le_trans h.nCtor h'.nCtor,
    Nat.le_trans h.nCmp h'.nCmp⟩
theorem Ext.setHeap (w : World N) (h) : Ext w (w.setHeap h) :=
  ⟨rfl, rfl, Nat.le_refl _, Nat.le_refl _, Nat.le_refl _⟩
theorem Ext.addCmp (w : World N) (n) : Ext w (w.addCmp n) :=
  ⟨rfl, rfl, Nat.le_refl _, Nat.le_refl _, Nat.le_add_right _ _⟩

/-- Read the cell `*p`. -/
def rd (p : Ptr) : M (World N) N := fun w =>
  if p = .null then some (.error .nullDeref) else
  match w.heap p with
  | some c => some (.ok (c, w))
  | none => some (.error .wild)

/-- Modify the cell `*p` in place. -/
def modCell (p : Ptr) (f : N → N) : M (World N) Unit := fun w =>
  if p = .null then some (.error .nullDeref) else
  match w.heap p with
  | some c => some (.ok ((), w.setHeap (upd w.heap p (some (f c)))))
  | none => some (.error .wild)

/-- `if (err)` -/
def hasErr : M (World N) Bool := fun w => some (.ok (w.err.isSome, w))

/-- `assert(b)` -/
def assertM {σ : Type} (b : Bool) : M σ Unit := if b then pure () else fault .assertFail

/-- `allocator::allocate(err, 1)` for a node: nestl/allocator.hpp:51-61.  On failure returns null and sets
`err`.  `init` fixes the ghost part of the new cell (owner, raw storage); everything else is junk.
The allocator may return any address that is not in use, including a recently freed one. -/
def allocCell (init : N → N) : M (World N) Ptr := fun w =>
  let w' := { w with nAlloc := w.nAlloc + 1 }
  match w.env.addr w.nAlloc with
  | none => some (.ok (.null, { w' with err := some .badAlloc }))
  | some a =>
    match w.heap (.dyn a) with
    | some _ => some (.ok (.null, { w' with err := some .badAlloc }))
    | none => some (.ok (.dyn a, w'.setHeap (upd w.heap (.dyn a) (some (init (w.env.junk w.nAlloc))))))

/-- `allocator::deallocate(p, 1)`: nestl/allocator.hpp:63-66.  `::operator delete(nullptr)` is a no-op.
`ok` says whether the cell may be released by this allocator (owner and storage state). -/
def freeCell (p : Ptr) (ok : N → Except Fault Unit) : M (World N) Unit := fun w =>
  match p with
  | .null => some (.ok ((), w))
  | .stk _ => some (.error .badFree)
  | .dyn a =>
    match w.heap (.dyn a) with
    | none => some (.error .badFree)
    | some c =>
      match ok c with
      | .error f => some (.error f)
      | .ok () => some (.ok ((), w.setHeap (upd w.heap (.dyn a) none)))

/-- Ask the environment whether the next element construction succeeds; on failure set `err`
(class_operations helper: has_exceptions/detail/class_operations.hpp:17-66 catches the exception and
stores it in `err`). -/
def tryCtor : M (World N) Bool := fun w =>
  let w' := { w with nCtor := w.nCtor + 1 }
  if w.env.ctor w.nCtor then some (.ok (true, w'))
  else some (.ok (false, { w' with err := some .ctorFailed }))

/-- A call of the user comparator (pure result, counted). -/
def cmp {K : Type} (lt : K → K → Bool) (a b : K) : M (World N) Bool := fun w =>
  some (.ok (lt a b, { w with nCmp := w.nCmp + 1 }))

/-- Define a fresh automatic object with the given content. -/
def newObj (mk : Ptr → N) : M (World N) Ptr := fun w =>
  some (.ok (.stk w.sp, { w with sp := w.sp + 1, heap := upd w.heap (.stk w.sp) (some (mk (.stk w.sp))) }))

/-- End of the lifetime of an automatic object. -/
def dropObj (p : Ptr) : M (World N) Unit := fun w =>
  match w.heap p with
  | some _ => some (.ok ((), w.setHeap (upd w.heap p none)))
  | none => some (.error .wild)

end prims

section wp
variable {σ α β : Type}

@[simp] theorem wp_pure (a : α) (s : σ) (Q : α → σ → Prop) : wp (pure a : M σ α) s Q ↔ Q a s := Iff.rfl

@[simp] theorem wp_bind (m : M σ α) (f : α → M σ β) (s : σ) (Q) :
    wp (m >>= f) s Q ↔ wp m s (fun a s' => wp (f a) s' Q) := by
  unfold wp
  simp only [bind, StateT.bind, ExceptT.bind, ExceptT.mk, Option.bind]
  rcases h : m s with _ | (_|⟨a, s'⟩)
  · rfl
  · rfl
  · rfl

theorem wp_mono {m : M σ α} {s : σ} {Q Q' : α → σ → Prop} (h : wp m s Q)
    (hq : ∀ a s', Q a s' → Q' a s') : wp m s Q' := by
  unfold wp at *
  split at h
  · exact hq _ _ h
  · exact h.elim

theorem wp_iff_runs {m : M σ α} {s : σ} {Q : α → σ → Prop} :
    wp m s Q ↔ ∃ a s', Runs m s a s' ∧ Q a s' := by
  unfold wp Runs
  split
  · next a s' h =>
    constructor
    · intro hq; exact ⟨a, s', h, hq⟩
    · rintro ⟨a', s'', h', hq⟩
      rw [h] at h'; cases h'; exact hq
  · next h =>
    constructor
    · exact False.elim
    · rintro ⟨a', s'', h', _⟩; exact (h _ _ h').elim

@[simp] theorem wp_ite (c : Prop) [Decidable c] (m n : M σ α) (s Q) :
    wp (if c then m else n) s Q ↔ (if c then wp m s Q else wp n s Q) := by
  split <;> rfl

theorem wp_if_pos {c : Prop} {inst : Decidable c} (h : c) {m n : M σ α} {s : σ} {Q : α → σ → Prop}
    (hq : wp m s Q) : wp (@ite _ c inst m n) s Q := by rw [if_pos h]; exact hq

theorem wp_if_neg {c : Prop} {inst : Decidable c} (h : ¬ c) {m n : M σ α} {s : σ} {Q : α → σ → Prop}
    (hq : wp n s Q) : wp (@ite _ c inst m n) s Q := by rw [if_neg h]; exact hq

@[simp] theorem wp_fault (f : Fault) (s : σ) (Q : α → σ → Prop) : wp (fault f : M σ α) s Q ↔ False := Iff.rfl

@[simp] theorem wp_assertM (b : Bool) (s : σ) (Q : Unit → σ → Prop) :
    wp (assertM b) s Q ↔ (b = true ∧ Q () s) := by
  unfold assertM; cases b <;> simp

end wp

section wpprims
variable {N : Type} {w : World N}

@[simp] theorem wp_hasErr {Q : Bool → World N → Prop} : wp hasErr w Q ↔ Q w.err.isSome w := Iff.rfl

theorem wp_rd {p : Ptr} {c : N} (h : w.heap p = some c) (hp : p ≠ .null) {Q : N → World N → Prop} :
    wp (rd p) w Q ↔ Q c w := by
  unfold wp rd; simp [hp, h]

theorem wp_modCell {p : Ptr} {f : N → N} {c : N} (h : w.heap p = some c) (hp : p ≠ .null)
    {Q : Unit → World N → Prop} :
    wp (modCell p f) w Q ↔ Q () (w.setHeap (upd w.heap p (some (f c)))) := by
  unfold wp modCell; simp [hp, h]

@[simp] theorem wp_cmp {K : Type} {lt : K → K → Bool} {a b : K} {Q : Bool → World N → Prop} :
    wp (cmp lt a b) w Q ↔ Q (lt a b) (w.addCmp 1) := Iff.rfl

@[simp] theorem wp_newObj {mk : Ptr → N} {Q : Ptr → World N → Prop} :
    wp (newObj mk) w Q ↔
      Q (.stk w.sp) { w with sp := w.sp + 1, heap := upd w.heap (.stk w.sp) (some (mk (.stk w.sp))) } := Iff.rfl

theorem wp_dropObj {p : Ptr} {c : N} (h : w.heap p = some c) {Q : Unit → World N → Prop} :
    wp (dropObj p) w Q ↔ Q () (w.setHeap (upd w.heap p none)) := by
  unfold wp dropObj; simp [h]

/-- The environment is about to refuse an allocation or an element construction: there is no memory for the next
request, or the next construction fails. -/
def Refused (w : World N) : Prop :=
  (∀ a, w.env.addr w.nAlloc = some a → w.heap (.dyn a) ≠ none) ∨ w.env.ctor w.nCtor = false

/-- The address `q` was unused in `w` and was handed out by an allocation request made between `w` and `w'`. -/
structure Fresh (w w' : World N) (q : Ptr) : Prop where
  none : w.heap q = none
  req : ∃ k a, q = .dyn a ∧ w.nAlloc ≤ k ∧ k < w'.nAlloc ∧ w.env.addr k = some a

/-- An environment that never runs out of memory, never hands out an address twice and whose constructors never
fail, together with a memory all of whose cells were handed out by it. -/
structure Good (w : World N) : Prop where
  some : ∀ k, ∃ a, w.env.addr k = some a
  inj : ∀ i j, w.env.addr i = w.env.addr j → i = j
  ctor : ∀ k, w.env.ctor k = true
  past : ∀ a, w.heap (.dyn a) ≠ none → ∃ k, k < w.nAlloc ∧ w.env.addr k = Option.some a

theorem Good.not_refused {w : World N} (h : Good w) : ¬ Refused w := by
  rintro (hr | hr)
  · obtain ⟨a, ha⟩ := h.some w.nAlloc
    obtain ⟨k, hk, hk2⟩ := h.past a (hr a ha)
    have := h.inj k w.nAlloc (hk2.trans ha.symm)
    omega
  · rw [h.ctor] at hr; cases hr

theorem Good.ext {w w' : World N} (h : Good w) (he : Ext w w')
    (hh : ∀ q, w'.heap q ≠ none → w.heap q ≠ none ∨ Fresh w w' q) : Good w' := by
  refine ⟨by rw [he.env]; exact h.some, by rw [he.env]; exact h.inj, by rw [he.env]; exact h.ctor, ?_⟩
  intro a ha
  rw [he.env]
  rcases hh _ ha with h1 | ⟨-, k, b, hb, -, hk, hk2⟩
  · obtain ⟨k, hk, hk2⟩ := h.past a h1
    exact ⟨k, Nat.lt_of_lt_of_le hk he.nAlloc, hk2⟩
  · cases hb; exact ⟨k, hk, hk2⟩

theorem Fresh.ext_left {w w1 w' : World N} {q : Ptr} (h : Fresh w1 w' q) (he : Ext w w1) (hq : w.heap q = .none) :
    Fresh w w' q := by
  obtain ⟨-, k, a, h1, h2, h3, h4⟩ := h
  exact ⟨hq, k, a, h1, Nat.le_trans he.nAlloc h2, h3, by rw [← he.env]; exact h4⟩

theorem Fresh.ext_right {w w1 w' : World N} {q : Ptr} (h : Fresh w w1 q) (he : Ext w1 w') : Fresh w w' q := by
  obtain ⟨h0, k, a, h1, h2, h3, h4⟩ := h
  exact ⟨h0, k, a, h1, h2, Nat.lt_of_lt_of_le h3 he.nAlloc, h4⟩

/-- Allocation either fails (memory untouched, `err` set) or yields a fresh cell. -/
theorem wp_allocCell {init : N → N} {Q : Ptr → World N → Prop}
    (hfail : (∀ a, w.env.addr w.nAlloc = some a → w.heap (.dyn a) ≠ none) →
      Q .null { w with nAlloc := w.nAlloc + 1, err := some .badAlloc })
    (hok : ∀ a, w.heap (.dyn a) = none → w.env.addr w.nAlloc = some a →
      Q (.dyn a) ({ w with nAlloc := w.nAlloc + 1, heap := upd w.heap (.dyn a) (some (init (w.env.junk w.nAlloc))) })) :
    wp (allocCell init) w Q := by
  unfold wp allocCell
  cases h : w.env.addr w.nAlloc with
  | none => simpa [h] using hfail (by simp [h])
  | some a =>
    cases h2 : w.heap (.dyn a) with
    | none => simpa [h, h2, World.setHeap] using hok a h2 h
    | some c => simpa [h, h2] using hfail (by rintro b hb; rw [h] at hb; cases hb; simp [h2])

theorem wp_tryCtor {Q : Bool → World N → Prop}
    (hok : w.env.ctor w.nCtor = true → Q true { w with nCtor := w.nCtor + 1 })
    (hfail : w.env.ctor w.nCtor = false → Q false { w with nCtor := w.nCtor + 1, err := some .ctorFailed }) :
    wp tryCtor w Q := by
  unfold wp tryCtor
  cases h : w.env.ctor w.nCtor
  · simpa [h] using hfail h
  · simpa [h] using hok h

theorem wp_freeCell {a : Nat} {ok : N → Except Fault Unit} {c : N} (h : w.heap (.dyn a) = some c) (hok : ok c = .ok ())
    {Q : Unit → World N → Prop} :
    wp (freeCell (.dyn a) ok) w Q ↔ Q () (w.setHeap (upd w.heap (.dyn a) none)) := by
  unfold wp freeCell; simp [h, hok]

@[simp] theorem wp_freeCell_null {ok : N → Except Fault Unit} {Q : Unit → World N → Prop} :
    wp (freeCell .null ok) w Q ↔ Q () w := Iff.rfl

end wpprims

section faults
variable {σ α β : Type}

/-- If the first part returns and the second part then faults, the whole faults. -/
theorem wp.faults_bind {m : M σ α} {k : α → M σ β} {s : σ} {f : Fault}
    (h : wp m s fun a s' => Faults (k a) s' f) : Faults (m >>= k) s f := by
  obtain ⟨a, s', h1, h2⟩ := wp_iff_runs.1 h
  unfold Runs at h1
  show ((m s : ExceptT Fault Option (α × σ)) >>= fun p => k p.1 p.2) = _
  rw [h1]; exact h2

theorem Faults.bind {m : M σ α} {k : α → M σ β} {s : σ} {f : Fault} (h : Faults m s f) : Faults (m >>= k) s f := by
  unfold Faults at h
  show ((m s : ExceptT Fault Option (α × σ)) >>= fun p => k p.1 p.2) = _
  rw [h]; rfl

theorem Faults.if_pos {c : Prop} {inst : Decidable c} (h : c) {m n : M σ α} {s : σ} {f : Fault}
    (hq : Faults m s f) : Faults (@ite _ c inst m n) s f := by rw [_root_.if_pos h]; exact hq

theorem Faults.if_neg {c : Prop} {inst : Decidable c} (h : ¬ c) {m n : M σ α} {s : σ} {f : Fault}
    (hq : Faults n s f) : Faults (@ite _ c inst m n) s f := by rw [_root_.if_neg h]; exact hq

theorem Faults.assertM {s : σ} {b : Bool} (h : b = false) : Faults (assertM b) s .assertFail := by
  subst h; rfl

end faults

/-- The comparator is a strict weak ordering (the requirement on `Compare`). -/
structure SWO {K : Type} (lt : K → K → Bool) : Prop where
  irrefl : ∀ a, lt a a = false
  trans : ∀ a b c, lt a b = true → lt b c = true → lt a c = true
  cotrans : ∀ a b c, lt a c = true → lt a b = true ∨ lt b c = true

theorem SWO.asymm {K : Type} {lt : K → K → Bool} (h : SWO lt) {a b : K} (hab : lt a b = true) : lt b a = false := by
  cases hh : lt b a
  · rfl
  · have := h.trans _ _ _ hab hh; rw [h.irrefl] at this; cases this

theorem Runs.det {σ α : Type} {m : M σ α} {s : σ} {a a' : α} {s' s'' : σ} (h : Runs m s a s') (h' : Runs m s a' s'') :
    a = a' ∧ s' = s'' := by
  unfold Runs at *
  rw [h] at h'; cases h'; exact ⟨rfl, rfl⟩

theorem wp.runs {σ α : Type} {m : M σ α} {s : σ} {Q : α → σ → Prop} (h : wp m s Q) : ∃ a s', Runs m s a s' ∧ Q a s' :=
  wp_iff_runs.1 h

theorem Runs.wp {σ α : Type} {m : M σ α} {s s' : σ} {a : α} {Q : α → σ → Prop} (h : wp m s Q) (hr : Runs m s a s') : Q a s' := by
  obtain ⟨b, s'', h1, h2⟩ := wp_iff_runs.1 h
  obtain ⟨rfl, rfl⟩ := Runs.det hr h1
  exact h2

end Nestl
