import Verif.Base
set_option autoImplicit false
/-
Property C47: `class_operations::construct` (nestl/class_operations.hpp) for all categories of
types.
-/
namespace Nestl.Construct

/-- Content of an object that is alive. -/
inductive Content (V : Type)
  | dflt                       -- after its default constructor
  | value (v : V)              -- fully initialised from the constructor arguments
  | part (v : V)               -- after a failed initialisation

/-- Storage for one object, in which `n` objects have been destroyed: no object in it, or an object that is alive. -/
inductive Cell (V : Type)
  | raw (n : Nat)
  | obj (n : Nat) (c : Content V)

abbrev W (V : Type) := World (Cell V)

/-- Categories of types: constructible from the arguments, or default constructible with a second phase
(`two_phase_initializator`); the (default) constructor may be `noexcept`. -/
inductive Category
  | direct (noexcept : Bool)
  | twoPhase (noexcept : Bool)

variable {V : Type}

/-- Begin the lifetime of an object. -/
def begin (p : Ptr) (c : Content V) : M (W V) Unit := do
  match (← rd p) with
  | .raw n => modCell p fun _ => .obj n c
  | .obj _ _ => fault .overwriteLive

/-- `class_operations_helper::construct`: nestl/has_exceptions/detail/class_operations.hpp:19-40 and
nestl/no_exceptions/detail/class_operations.hpp:19-25 (only the `noexcept` form).  A constructor that is not `noexcept` may throw, which is reported in
`err`. -/
def helperConstruct (noexcept : Bool) (p : Ptr) (c : Content V) : M (W V) Unit := do
  if noexcept then begin p c
  else if (← tryCtor) then begin p c else pure ()

/-- `nestl::detail::destroy(T*)`: nestl/detail/destroy.hpp:17-21, with a count of the objects destroyed in this
storage. -/
def destroy (p : Ptr) : M (W V) Unit := do
  match (← rd p) with
  | .raw _ => fault .rawRead
  | .obj n _ => modCell p fun _ => .raw (n + 1)

/-- `two_phase_initializator<T>::init(err, *ptr, args...)`, code of the user of the library (nestl/type_traits.hpp:20-37): the
object must be alive; initialises it from the arguments, or reports an error and leaves it alive in any state. -/
def init (p : Ptr) (v : V) (junk : V) : M (W V) Unit := do
  match (← rd p) with
  | .raw _ => fault .rawRead
  | .obj n _ => if (← tryCtor) then modCell p fun _ => .obj n (.value v) else modCell p fun _ => .obj n (.part junk)

/-- `construct(err, ptr, args...)`: nestl/class_operations.hpp:32-37, and the two-phase variant, nestl/class_operations.hpp:41-65, with
`destruction_scoped_guard` (nestl/detail/destroy.hpp:33-59). -/
def construct (k : Category) (p : Ptr) (v junk : V) : M (W V) Unit := do
  match k with
  | .direct ne => helperConstruct ne p (.value v)
  | .twoPhase ne => do
    helperConstruct ne p .dflt
    if (← hasErr) then pure () else do
    init p v junk
    if (← hasErr) then destroy p             -- ~guard
    else pure ()                             -- guard.release()

section
variable {w : W V} {p : Ptr}

theorem wp_begin (hp : p ≠ .null) {n : Nat} (h : w.heap p = some (.raw n)) {c : Content V} {Q : Unit → W V → Prop} :
    wp (begin p c) w Q ↔ Q () (w.setHeap (upd w.heap p (some (.obj n c)))) := by
  unfold begin
  rw [wp_bind, wp_rd h hp]
  exact wp_modCell h hp

/-- How a construction can fail: the (default) constructor throws, or the second phase fails. -/
def Fails (w : W V) : Category → Prop
  | .direct ne => ne = false ∧ w.env.ctor w.nCtor = false
  | .twoPhase true => w.env.ctor w.nCtor = false
  | .twoPhase false => w.env.ctor w.nCtor = false ∨ w.env.ctor (w.nCtor + 1) = false

/-- The default constructor has run and the second phase fails. -/
def FailsLate (w : W V) : Category → Prop
  | .direct _ => False
  | .twoPhase true => w.env.ctor w.nCtor = false
  | .twoPhase false => w.env.ctor w.nCtor = true ∧ w.env.ctor (w.nCtor + 1) = false

/-- C47: for every category of types and every failure point, `construct` in raw storage returns either without error and
with a fully initialised object, or with an error and the storage without a live object.  In the latter case one object
more has been destroyed there if the default constructor had succeeded, and none otherwise: the number `n` of
objects destroyed there stays.  (Destroying twice or
destroying raw storage would be a fault.)  No other memory changes. -/
theorem construct_all_or_nothing (k : Category) (v junk : V) (hp : p ≠ .null) {n : Nat} (h : w.heap p = some (.raw n)) (he : w.err = none) :
    ∃ w', Runs (construct k p v junk) w () w' ∧
      (¬ Fails w k → w'.err = none ∧ w'.heap = upd w.heap p (some (.obj n (.value v)))) ∧
      (Fails w k → w'.err ≠ none ∧
        (FailsLate w k → w'.heap = upd w.heap p (some (.raw (n + 1)))) ∧ (¬ FailsLate w k → w'.heap = w.heap)) := by
  have key : wp (construct k p v junk) w fun _ w' =>
      (¬ Fails w k → w'.err = none ∧ w'.heap = upd w.heap p (some (.obj n (.value v)))) ∧
      (Fails w k → w'.err ≠ none ∧
        (FailsLate w k → w'.heap = upd w.heap p (some (.raw (n + 1)))) ∧ (¬ FailsLate w k → w'.heap = w.heap)) := by
    have phase2 : ∀ (w1 : W V), w1.heap = upd w.heap p (some (.obj n .dflt)) → w1.err = none → w1.env = w.env →
        wp (do
          if (← hasErr) then pure () else do
          init p v junk
          if (← hasErr) then destroy p else pure ()) w1 fun _ w' =>
          (w.env.ctor w1.nCtor = true → w'.err = none ∧ w'.heap = upd w.heap p (some (.obj n (.value v)))) ∧
          (w.env.ctor w1.nCtor = false → w'.err ≠ none ∧ w'.heap = upd w.heap p (some (.raw (n + 1)))) := by
      intro w1 h1 h2 h3
      have hc : w1.heap p = some (.obj n .dflt) := by rw [h1, upd_same]
      rw [wp_bind, wp_hasErr, h2]
      refine wp_if_neg (by simp) ?_
      unfold init
      simp only [wp_bind]
      rw [wp_rd hc hp]
      simp only [wp_bind]
      refine wp_tryCtor ?_ ?_
      · intro ht
        rw [h3] at ht
        refine wp_if_pos rfl ?_
        refine (wp_modCell (w := { w1 with nCtor := w1.nCtor + 1 }) hc hp).2 ?_
        rw [wp_hasErr]
        refine wp_if_neg (by simp [h2]) ?_
        refine ⟨fun _ => ⟨h2, ?_⟩, fun h => ?_⟩
        · show upd w1.heap p _ = _
          rw [h1, upd_upd]
        · rw [ht] at h; cases h
      · intro ht
        rw [h3] at ht
        refine wp_if_neg (by simp) ?_
        refine (wp_modCell (w := { w1 with nCtor := w1.nCtor + 1, err := some .ctorFailed }) hc hp).2 ?_
        rw [wp_hasErr]
        refine wp_if_pos rfl ?_
        unfold destroy
        rw [wp_bind]
        refine (wp_rd (c := .obj n (.part junk)) (upd_same ..) hp).2 ?_
        refine (wp_modCell (c := .obj n (.part junk)) (upd_same ..) hp).2 ?_
        refine ⟨fun h => ?_, fun _ => ⟨(by simp [World.setHeap]), ?_⟩⟩
        · rw [ht] at h; cases h
        · show upd (upd w1.heap p _) p _ = _
          rw [upd_upd, h1, upd_upd]
    cases k with
    | direct ne =>
      cases ne with
      | true =>
        unfold construct helperConstruct
        refine wp_if_pos rfl ?_
        rw [wp_begin hp h]
        exact ⟨fun _ => ⟨he, rfl⟩, fun h => by cases h.1⟩
      | false =>
        unfold construct helperConstruct
        refine wp_if_neg (by simp) ?_
        rw [wp_bind]
        refine wp_tryCtor ?_ ?_
        · intro hc
          refine wp_if_pos rfl ?_
          refine (wp_begin (w := { w with nCtor := w.nCtor + 1 }) hp h).2 ?_
          exact ⟨fun _ => ⟨he, rfl⟩, fun h => by rw [h.2] at hc; cases hc⟩
        · intro hc
          refine wp_if_neg (by simp) ?_
          exact ⟨fun h => (h ⟨rfl, hc⟩).elim, fun _ => ⟨by simp, fun h => h.elim, fun _ => rfl⟩⟩
    | twoPhase ne =>
      unfold construct
      rw [wp_bind]
      unfold helperConstruct
      cases ne with
      | true =>
        refine wp_if_pos rfl ?_
        rw [wp_begin hp h]
        refine wp_mono (phase2 _ rfl he rfl) ?_
        rintro _ w' ⟨h1, h2⟩
        constructor
        · intro hn
          exact h1 (by simpa [Fails] using hn)
        · intro hf
          obtain ⟨h3, h4⟩ := h2 hf
          exact ⟨h3, fun _ => h4, fun h => (h hf).elim⟩
      | false =>
        refine wp_if_neg (by simp) ?_
        rw [wp_bind]
        refine wp_tryCtor ?_ ?_
        · intro hc
          refine wp_if_pos rfl ?_
          refine (wp_begin (w := { w with nCtor := w.nCtor + 1 }) hp h).2 ?_
          refine wp_mono (phase2 (World.setHeap { w with nCtor := w.nCtor + 1 } (upd w.heap p (some (.obj n .dflt)))) rfl he rfl) ?_
          rintro _ w' ⟨h1, h2⟩
          constructor
          · intro hn
            refine h1 ?_
            cases hx : w.env.ctor (w.nCtor + 1) with
            | true => exact hx
            | false => exact (hn (.inr hx)).elim
          · rintro (hf | hf)
            · rw [hc] at hf; cases hf
            · obtain ⟨h3, h4⟩ := h2 hf
              exact ⟨h3, fun _ => h4, fun h => (h ⟨hc, hf⟩).elim⟩
        · intro hc
          refine wp_if_neg (by simp) ?_
          rw [wp_pure, wp_bind, wp_hasErr]
          refine wp_if_pos rfl ?_
          refine ⟨fun h => (h (.inl hc)).elim, fun _ => ⟨by simp, fun h => ?_, fun _ => rfl⟩⟩
          rw [h.1] at hc; cases hc
  obtain ⟨_, w', h1, h2⟩ := key.runs
  exact ⟨w', h1, h2⟩

/-- With an error object that already holds an error the guarantee is lost: the default-constructed object is left
alive, and not initialised. -/
theorem construct_stale_error_violated (v junk : V) (hp : p ≠ .null) {n : Nat} (h : w.heap p = some (.raw n)) (he : w.err ≠ none) :
    ∃ w', Runs (construct (.twoPhase true) p v junk) w () w' ∧ w'.err = w.err ∧ w'.heap = upd w.heap p (some (.obj n .dflt)) := by
  have : wp (construct (.twoPhase true) p v junk) w fun _ w' => w'.err = w.err ∧ w'.heap = upd w.heap p (some (.obj n .dflt)) := by
    unfold construct helperConstruct
    rw [wp_bind]
    refine wp_if_pos rfl ?_
    rw [wp_begin hp h, wp_bind, wp_hasErr]
    refine wp_if_pos (by cases hx : w.err <;> simp_all) ?_
    exact ⟨rfl, rfl⟩
  obtain ⟨_, w', h1, h2⟩ := this.runs
  exact ⟨w', h1, h2⟩

end

/-- Raw storage; the construction number `n` fails. -/
def demo (n : Nat) : W Nat :=
  { heap := fun p => if p = .dyn 0 then some (.raw 0) else none,
    env := { addr := fun _ => none, ctor := fun k => k ≠ n, junk := fun _ => .raw 0 },
    nAlloc := 0, nCtor := 0, nCmp := 0, sp := 0, err := none }

/-- A failing default constructor, a failing second phase, and success. -/
example : (demo 0).heap (.dyn 0) = some (.raw 0) ∧ (Fails (demo 0) (.twoPhase false) ∧ ¬ FailsLate (demo 0) (.twoPhase false)) ∧
    FailsLate (demo 1) (.twoPhase false) ∧ ¬ Fails (demo 2) (.twoPhase false) := by
  refine ⟨rfl, ⟨.inl rfl, fun h => ?_⟩, ⟨rfl, rfl⟩, ?_⟩
  · cases h.1
  · rintro (h | h) <;> cases h

example : (demo 5).heap (.dyn 0) = some (.raw 0) ∧ ({ demo 5 with err := some .badAlloc } : W Nat).err ≠ none := ⟨rfl, by simp⟩

end Nestl.Construct
