import Verif.VectorOf.Model
import Verif.Vector.Sim
set_option autoImplicit false
/-
The contract of element classes, and the relation between the memory of vectors of objects and the memory of vectors of values:
an object is replaced by its value.
-/
namespace Nestl.VO
open Nestl.Vec (W VCell Obj Blk rdObj setObj rdBlk slotRd slotPut deallocate allocate newVec swapData)
open Classical

/-- What an element class promises.  `A` are the values of its objects, `X` is whatever else is in their memory. -/
structure Elem (S A X : Type) extends ElemOps S where
  /-- Reachable states of the memory of the objects. -/
  inv : S → Prop
  /-- The live objects and their values. -/
  val : S → Ptr → Option A
  /-- Everything else. -/
  rest : S → X
  /-- The value of new and of moved-from objects. -/
  blank : A
  make_ok : ∀ i, inv i → wp make i fun q i' => inv i' ∧ rest i' = rest i ∧ val i q = none ∧ val i' = upd (val i) q (some blank)
  copy_ok : ∀ i q a, inv i → val i q = some a → wp (copy q) i fun r i' => inv i' ∧ rest i' = rest i ∧
    match r with
    | .ok p => val i p = none ∧ val i' = upd (val i) p (some a)
    | .error _ => val i' = val i
  move_ok : ∀ i q a, inv i → val i q = some a → wp (move q) i fun p i' => inv i' ∧ rest i' = rest i ∧
    val i p = none ∧ val i' = upd (upd (val i) q (some blank)) p (some a)
  drop_ok : ∀ i q, inv i → val i q ≠ none → wp (drop q) i fun _ i' => inv i' ∧ rest i' = rest i ∧ val i' = upd (val i) q none

variable {S A X α β : Type}

/-- Slot `j` of the block at `p` holds the object `q`. -/
def Slot (o : W Ptr) (p : Ptr) (j : Nat) (q : Ptr) : Prop := ∃ b, o.heap p = some (.blk b) ∧ b.slots[j]? = some (some q)

/-- `q` is an element of a vector. -/
def Owned (o : W Ptr) (q : Ptr) : Prop := ∃ p j, Slot o p j q

/-- Replace objects by their values. -/
def absCell (f : Ptr → Option A) : VCell Ptr → VCell A
  | .obj o => .obj o
  | .blk b => .blk ⟨b.slots.map fun x => x.bind f, b.owner, b.count⟩

variable (E : Elem S A X)

/-- The values of the objects that are not elements of vectors, and everything else in the memory of the elements. -/
noncomputable def outside (s : NS S) : (Ptr → Option A) × X :=
  (fun q => if Owned s.o q then none else E.val s.i q, E.rest s.i)

/-- `w` holds vectors of values where `s` holds vectors of objects. -/
structure Rel (s : NS S) (w : W A) : Prop where
  inv : E.inv s.i
  heap : ∀ p, w.heap p = (s.o.heap p).map (absCell (E.val s.i))
  live : ∀ q, Owned s.o q → E.val s.i q ≠ none
  typed : ∀ p b, s.o.heap p = some (.blk b) → ∃ a, p = .dyn a
  uniq : ∀ p j p' j' q, Slot s.o p j q → Slot s.o p' j' q → p = p' ∧ j = j'
  addr : w.env.addr = s.o.env.addr
  nAlloc : w.nAlloc = s.o.nAlloc
  sp : w.sp = s.o.sp
  err : w.err.isSome = s.o.err.isSome

/-- The same state with other answers of the constructors. -/
def oracle (w : W A) (c : Nat → Bool) : W A := { w with env := { w.env with ctor := c } }

/-- The program runs without fault whatever the constructors answer from now on. -/
def AllSafe (n : M (W A) α) (w : W A) : Prop :=
  ∀ c, (∀ k, k < w.nCtor → c k = w.env.ctor k) → ∃ r w', Runs n (oracle w c) r w'

/-- `m` does with objects what `n` does with values, for some answers of the constructors. -/
def Sim (P : NS S → Prop) (m : M (NS S) α) (n : M (W A) α) (Q : α → NS S → Prop) : Prop :=
  ∀ s w, Rel E s w → P s → AllSafe n w → ∃ r s' w', Runs m s r s' ∧ Rel E s' w' ∧ Q r s' ∧ w.nCtor ≤ w'.nCtor ∧
    (∀ k, k < w.nCtor → w'.env.ctor k = w.env.ctor k) ∧
    ∀ c, (∀ k, k < w'.nCtor → c k = w'.env.ctor k) → Runs n (oracle w c) r (oracle w' c)

variable {E} {P P' : NS S → Prop} {Q Q' : α → NS S → Prop}

theorem Sim.weaken {m : M (NS S) α} {n : M (W A) α} (h : Sim E P m n Q) (hp : ∀ s, P' s → P s) (hq : ∀ r s, Q r s → Q' r s) :
    Sim E P' m n Q' := by
  intro s w hR hP hA
  obtain ⟨r, s', w', h1, h2, h3, h4⟩ := h s w hR (hp s hP) hA
  exact ⟨r, s', w', h1, h2, hq _ _ h3, h4⟩

theorem runs_bind_iff {σ : Type} {m : M σ α} {f : α → M σ β} {s : σ} {r : β} {s' : σ} :
    Runs (m >>= f) s r s' ↔ ∃ a t, Runs m s a t ∧ Runs (f a) t r s' := by
  unfold Runs
  simp only [bind, StateT.bind, ExceptT.bind, ExceptT.mk, Option.bind]
  rcases h : m s with _ | (_|⟨a, t⟩)
  · simp
  · simp only [ExceptT.bindCont]
    constructor
    · intro h; cases h
    · rintro ⟨_, _, h, -⟩; cases h
  · simp only [ExceptT.bindCont]
    constructor
    · intro h2; exact ⟨a, t, rfl, h2⟩
    · rintro ⟨a', t', h2, h3⟩; cases h2; exact h3

theorem Sim.bind {m : M (NS S) α} {n : M (W A) α} {f : α → M (NS S) β} {g : α → M (W A) β} {R : β → NS S → Prop}
    (h1 : Sim E P m n Q) (h2 : ∀ r, Sim E (Q r) (f r) (g r) R) : Sim E P (m >>= f) (n >>= g) R := by
  intro s w hR hP hA
  obtain ⟨r, s', w', a1, a2, a3, a4, a5, a6⟩ := h1 s w hR hP (fun c hc => by
    obtain ⟨r, w', h⟩ := hA c hc
    obtain ⟨a, t, h, -⟩ := runs_bind_iff.1 h
    exact ⟨a, t, h⟩)
  obtain ⟨r', s'', w'', b1, b2, b3, b4, b5, b6⟩ := h2 r s' w' a2 a3 (fun c hc => by
    have hc' : ∀ k, k < w.nCtor → c k = w.env.ctor k := fun k hk => (hc k (by omega)).trans (a5 k hk)
    obtain ⟨r1, w1, h⟩ := hA c hc'
    obtain ⟨a, t, k1, k2⟩ := runs_bind_iff.1 h
    obtain ⟨rfl, rfl⟩ := Runs.det k1 (a6 c hc)
    exact ⟨_, _, k2⟩)
  refine ⟨r', s'', w'', runs_bind_iff.2 ⟨_, _, a1, b1⟩, b2, b3, by omega, fun k hk => (b5 k (by omega)).trans (a5 k hk),
    fun c hc => runs_bind_iff.2 ⟨_, _, a6 c fun k hk => (hc k (by omega)).trans (b5 k hk), b6 c hc⟩⟩

theorem Sim.pure (r : α) (hq : ∀ s, P s → Q r s) : Sim E P (pure r) (pure r) Q :=
  fun s w hR hP _ => ⟨r, s, w, rfl, hR, hq s hP, Nat.le_refl _, fun _ _ => rfl, fun _ _ => rfl⟩

theorem Sim.ite {c : Prop} {inst : Decidable c} {m m' : M (NS S) α} {n n' : M (W A) α} (h1 : c → Sim E P m n Q)
    (h2 : ¬ c → Sim E P m' n' Q) : Sim E P (@_root_.ite _ c inst m m') (@_root_.ite _ c inst n n') Q := by
  split
  · exact h1 ‹_›
  · exact h2 ‹_›

theorem oracle_self (w : W A) : oracle w w.env.ctor = w := rfl

/-- A step that does not depend on the constructors. -/
theorem Sim.step {m : M (NS S) α} {n : M (W A) α}
    (h : ∀ s w, Rel E s w → P s → ∀ r w', Runs n w r w' → ∃ s', Runs m s r s' ∧ Rel E s' w' ∧ Q r s' ∧ w'.nCtor = w.nCtor ∧
      w'.env = w.env ∧ ∀ c, Runs n (oracle w c) r (oracle w' c)) : Sim E P m n Q := by
  intro s w hR hP hA
  obtain ⟨r, w', hr⟩ := hA w.env.ctor fun _ _ => rfl
  obtain ⟨s', a1, a2, a3, a4, a5, a6⟩ := h s w hR hP r w' hr
  exact ⟨r, s', w', a1, a2, a3, by omega, fun k _ => by rw [a5], fun c _ => a6 c⟩

theorem Sim.assert (b : Bool) : Sim E P (assertM b) (assertM b) fun _ s => P s := by
  apply Sim.step
  intro s w hR hP r w' hr
  cases b
  · cases hr
  · cases hr
    exact ⟨s, rfl, hR, hP, rfl, rfl, fun _ => rfl⟩

theorem runs_onO {m : M (W Ptr) α} {s : NS S} {r : α} {o : W Ptr} (h : Runs m s.o r o) :
    Runs (onO m) s r { s with o := o } := by
  unfold Runs onO; rw [show m s.o = _ from h]

theorem runs_onI {m : M S α} {s : NS S} {r : α} {i : S} (h : Runs m s.i r i) :
    Runs (onI m) s r { s with i := i } := by
  unfold Runs onI; rw [show m s.i = _ from h]

theorem onO_bind (m : M (W Ptr) α) (f : α → M (W Ptr) β) : (onO (m >>= f) : M (NS S) β) = onO m >>= fun a => onO (f a) := by
  funext s
  unfold onO
  simp only [Bind.bind, StateT.bind, ExceptT.bind, ExceptT.mk, Option.bind]
  rcases h : m s.o with _ | (_|⟨a, t⟩) <;> rfl

theorem onO_pure (a : α) : (onO (Pure.pure a) : M (NS S) α) = Pure.pure a := rfl

theorem Rel.heap_none {s : NS S} {w : W A} (h : Rel E s w) (p : Ptr) : w.heap p = none ↔ s.o.heap p = none := by
  rw [h.heap]; cases s.o.heap p <;> simp

theorem Rel.heap_obj {s : NS S} {w : W A} (h : Rel E s w) {p : Ptr} {o : Obj} (hp : w.heap p = some (.obj o)) :
    s.o.heap p = some (.obj o) := by
  rw [h.heap] at hp
  cases e : s.o.heap p with
  | none => rw [e] at hp; cases hp
  | some c => cases c <;> rw [e] at hp <;> cases hp; rfl

theorem Rel.heap_blk {s : NS S} {w : W A} (h : Rel E s w) {p : Ptr} {b : Blk A} (hp : w.heap p = some (.blk b)) :
    ∃ b', s.o.heap p = some (.blk b') ∧ b = ⟨b'.slots.map fun x => x.bind (E.val s.i), b'.owner, b'.count⟩ := by
  rw [h.heap] at hp
  cases e : s.o.heap p with
  | none => rw [e] at hp; cases hp
  | some c =>
    cases c <;> rw [e] at hp <;> cases hp
    exact ⟨_, rfl, rfl⟩

theorem Rel.slot {s : NS S} {w : W A} (h : Rel E s w) {p : Ptr} {b : Blk A} {j : Nat} {a : A} (hp : w.heap p = some (.blk b))
    (hj : b.slots[j]? = some (some a)) : ∃ q, Slot s.o p j q ∧ E.val s.i q = some a := by
  obtain ⟨b', h1, rfl⟩ := h.heap_blk hp
  simp only [List.getElem?_map, Option.map_eq_some_iff] at hj
  obtain ⟨x, h2, h3⟩ := hj
  cases x with
  | none => cases h3
  | some q => exact ⟨q, ⟨b', h1, h2⟩, h3⟩

end Nestl.VO
