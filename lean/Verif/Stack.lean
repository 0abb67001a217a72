import Verif.Quiet
set_option autoImplicit false
/-
Programs on a machine with a bounded call stack.
-/
namespace Nestl
open Lean.Order

/-- Whatever `m` computes is what `n` computes (`m` may fail or overflow the stack where `n` does not). -/
def Sub {N α : Type} (m n : M (World N) α) : Prop := ∀ w a w', Runs m w a w' → Runs n w a w'

section
variable {N α β : Type}

theorem Sub.refl (m : M (World N) α) : Sub m m := fun _ _ _ h => h

theorem Sub.fault (f : Fault) (m : M (World N) α) : Sub (fault f) m := fun _ _ _ h => by cases h

theorem runs_then {m : M (World N) α} {k : α → M (World N) β} {w w1 w2 : World N} {a : α} {b : β} (h : Runs m w a w1)
    (h' : Runs (k a) w1 b w2) : Runs (m >>= k) w b w2 := by
  have : wp (m >>= k) w fun b' w' => b' = b ∧ w' = w2 := by
    rw [wp_bind]
    exact wp_iff_runs.2 ⟨a, w1, h, wp_iff_runs.2 ⟨b, w2, h', rfl, rfl⟩⟩
  obtain ⟨b', w', h3, rfl, rfl⟩ := this.runs
  exact h3

theorem Sub.bind {m n : M (World N) α} {k l : α → M (World N) β} (h : Sub m n) (hk : ∀ a, Sub (k a) (l a)) :
    Sub (m >>= k) (n >>= l) := by
  intro w b w2 hr
  obtain ⟨a, w1, h1, h3⟩ := runs_steps hr
  exact runs_then (h _ _ _ h1) (hk a _ _ _ h3)

theorem Sub.ite {c : Prop} {inst : Decidable c} {m m' n n' : M (World N) α} (hm : Sub m m') (hn : Sub n n') :
    Sub (@_root_.ite _ c inst m n) (@_root_.ite _ c inst m' n') := by split <;> assumption

theorem Sub.wp {m n : M (World N) α} (h : Sub m n) {w : World N} {Q : α → World N → Prop} (hw : wp m w Q) : wp n w Q := by
  obtain ⟨a, w', h1, h2⟩ := hw.runs
  exact wp_iff_runs.2 ⟨a, w', h _ _ _ h1, h2⟩

/-- Two programs that agree on the steps they make agree. -/
theorem bind_agree {m n : M (World N) α} {k l : α → M (World N) β} {w : World N} (h : m w = n w)
    (hk : ∀ a w', Runs n w a w' → k a w' = l a w') : (m >>= k) w = (n >>= l) w := by
  simp only [bind, StateT.bind, ExceptT.bind, ExceptT.mk, Option.bind]
  rw [h]
  rcases hn : n w with _ | (_|⟨a, w'⟩)
  · rfl
  · rfl
  · exact hk a w' hn

/-- What `n` computes from `w` is what `m` computes from `w`. -/
def Sim (m n : M (World N) α) (w : World N) : Prop := ∀ a w', Runs n w a w' → Runs m w a w'

theorem Sim.refl (m : M (World N) α) (w : World N) : Sim m m w := fun _ _ h => h

theorem Sim.bind {m n : M (World N) α} {k l : α → M (World N) β} {w : World N} (h : Sim m n w)
    (hk : ∀ a w', Runs n w a w' → Sim (k a) (l a) w') : Sim (m >>= k) (n >>= l) w := by
  intro b w2 hr
  obtain ⟨a, w1, h1, h3⟩ := runs_steps hr
  exact runs_then (h _ _ h1) (hk _ _ h1 _ _ h3)

theorem Sim.then {m : M (World N) α} {k l : α → M (World N) β} {w : World N}
    (hk : ∀ a w', Runs m w a w' → Sim (k a) (l a) w') : Sim (m >>= k) (m >>= l) w := (Sim.refl m w).bind hk

theorem Sub.agree {m n : M (World N) α} (h : Sub m n) {w : World N} {Q : α → World N → Prop} (hw : Nestl.wp m w Q) : m w = n w := by
  obtain ⟨a, w', h1, -⟩ := hw.runs
  exact h1.trans (h _ _ _ h1).symm

theorem Sub.admissible (n : M (World N) α) : Lean.Order.admissible (fun m : M (World N) α => Sub m n) := by
  have h1 : ∀ w : World N, Lean.Order.admissible (fun r : Option (Except Fault (α × World N)) =>
      ∀ a w', r = some (.ok (a, w')) → Runs n w a w') :=
    fun w => admissible_flatOrder _ (by intro a w' h; cases h)
  exact admissible_pi_apply _ h1

theorem Sub.admissible1 {A : Type} (n : A → M (World N) α) :
    Lean.Order.admissible (fun m : A → M (World N) α => ∀ a, Sub (m a) (n a)) :=
  admissible_pi_apply (fun a (m : M (World N) α) => Sub m (n a)) fun a => Sub.admissible (n a)

theorem Sub.admissible2 {A B : Type} (n : A → B → M (World N) α) :
    Lean.Order.admissible (fun m : A → B → M (World N) α => ∀ a b, Sub (m a b) (n a b)) :=
  admissible_pi_apply (fun a (m : B → M (World N) α) => ∀ b, Sub (m b) (n a b)) fun a => Sub.admissible1 (n a)

end
end Nestl
