import Verif.Base
set_option autoImplicit false
/-
Auxiliary facts for the throwing containers.
-/
namespace Nestl

theorem runs_bind {σ α β : Type} {m : M σ α} {f : α → M σ β} {s s' : σ} {b : β} :
    Runs (m >>= f) s b s' ↔ ∃ a s1, Runs m s a s1 ∧ Runs (f a) s1 b s' := by
  unfold Runs
  simp only [bind, StateT.bind, ExceptT.bind, ExceptT.mk, Option.bind]
  rcases h : m s with _ | (_|⟨a, s1⟩)
  · simp
  · constructor
    · intro h1; cases h1
    · rintro ⟨_, _, h1, _⟩; cases h1
  · simp only [ExceptT.bindCont]
    constructor
    · intro h1; exact ⟨a, s1, rfl, h1⟩
    · rintro ⟨_, _, h1, h2⟩; cases h1; exact h2

theorem runs_faults_bind {σ α β : Type} {m : M σ α} {f : α → M σ β} {s s' : σ} {a : α} {e : Fault} (h : Runs m s a s')
    (h' : Faults (f a) s' e) : Faults (m >>= f) s e := by
  unfold Runs at h
  unfold Faults at h' ⊢
  simp only [bind, StateT.bind, ExceptT.bind, ExceptT.mk, Option.bind, h, ExceptT.bindCont]
  exact h'

/-- What a throwing function returns for the error reported by a nothrow function. -/
def outcome : Option Err → Except Err Unit
  | some e => .error e
  | none => .ok ()

end Nestl
