import Verif.Quiet
set_option autoImplicit false
/-
Programs that create no automatic objects.
-/
namespace Nestl
open Lean.Order

/-- `m` creates no automatic object. -/
def Fixed {N α : Type} (m : M (World N) α) : Prop := ∀ w a w', Runs m w a w' → w'.sp = w.sp

section
variable {N α β : Type}

theorem Fixed.pure (a : α) : Fixed (pure a : M (World N) α) := by
  intro w a w' h; cases h; rfl

theorem Fixed.fault (f : Fault) : Fixed (fault f : M (World N) α) := by
  intro w a w' h; cases h

theorem Fixed.bind {m : M (World N) α} {k : α → M (World N) β} (h : Fixed m) (hk : ∀ a, Fixed (k a)) :
    Fixed (m >>= k) := by
  intro w b w2 hr
  obtain ⟨a, w1, h1, h3⟩ := runs_steps hr
  exact (hk a _ _ _ h3).trans (h _ _ _ h1)

theorem Fixed.ite {c : Prop} {inst : Decidable c} {m n : M (World N) α} (hm : Fixed m) (hn : Fixed n) :
    Fixed (@_root_.ite _ c inst m n) := by split <;> assumption

theorem Fixed.rd (p : Ptr) : Fixed (rd p : M (World N) N) := by
  intro w a w' h
  unfold Runs Nestl.rd at h
  split at h
  · cases h
  · split at h
    · cases h; rfl
    · cases h

theorem Fixed.modCell (p : Ptr) (f : N → N) : Fixed (modCell p f) := by
  intro w a w' h
  unfold Runs Nestl.modCell at h
  split at h
  · cases h
  · split at h
    · cases h; rfl
    · cases h

theorem Fixed.assertM (b : Bool) : Fixed (assertM b : M (World N) Unit) := by
  cases b
  · exact Fixed.fault _
  · exact Fixed.pure _

theorem Fixed.cmp {K : Type} (lt : K → K → Bool) (a b : K) : Fixed (cmp lt a b : M (World N) Bool) := by
  intro w r w' h; cases h; rfl

theorem Fixed.dropObj (p : Ptr) : Fixed (dropObj p : M (World N) Unit) := by
  intro w a w' h
  unfold Runs Nestl.dropObj at h
  split at h
  · cases h; rfl
  · cases h

theorem Fixed.freeCell (p : Ptr) (ok : N → Except Fault Unit) : Fixed (freeCell p ok) := by
  intro w a w' h
  unfold Runs Nestl.freeCell at h
  split at h
  · cases h; rfl
  · cases h
  · split at h
    · cases h
    · split at h
      · cases h
      · cases h; rfl

theorem Fixed.admissible : admissible (fun m : M (World N) α => Fixed m) := by
  have h1 : ∀ w : World N, Lean.Order.admissible (fun r : Option (Except Fault (α × World N)) =>
      ∀ a w', r = some (.ok (a, w')) → w'.sp = w.sp) :=
    fun w => admissible_flatOrder _ (by intro a w' h; cases h)
  exact admissible_pi_apply _ h1

theorem Fixed.admissible1 {A : Type} : Lean.Order.admissible (fun m : A → M (World N) α => ∀ a, Fixed (m a)) :=
  admissible_pi_apply _ fun _ => Fixed.admissible

theorem Fixed.admissible2 {A B : Type} :
    Lean.Order.admissible (fun m : A → B → M (World N) α => ∀ a b, Fixed (m a b)) :=
  admissible_pi_apply _ fun _ => Fixed.admissible1
end

/-- Closes `Fixed` goals for operations that are known to create no objects. -/
syntax "fixed_leaf" : tactic
macro_rules | `(tactic| fixed_leaf) => `(tactic| with_reducible assumption)
macro_rules | `(tactic| fixed_leaf) => `(tactic| with_reducible exact Nestl.Fixed.pure _)
macro_rules | `(tactic| fixed_leaf) => `(tactic| with_reducible exact Nestl.Fixed.fault _)
macro_rules | `(tactic| fixed_leaf) => `(tactic| with_reducible exact Nestl.Fixed.rd _)
macro_rules | `(tactic| fixed_leaf) => `(tactic| with_reducible exact Nestl.Fixed.modCell _ _)
macro_rules | `(tactic| fixed_leaf) => `(tactic| with_reducible exact Nestl.Fixed.assertM _)
macro_rules | `(tactic| fixed_leaf) => `(tactic| with_reducible exact Nestl.Fixed.cmp _ _ _)
macro_rules | `(tactic| fixed_leaf) => `(tactic| with_reducible exact Nestl.Fixed.dropObj _)
macro_rules | `(tactic| fixed_leaf) => `(tactic| with_reducible exact Nestl.Fixed.freeCell _ _)

/-- Follows the structure of a program. -/
macro "fixedly" : tactic => `(tactic|
  repeat' first
    | fixed_leaf
    | with_reducible apply Nestl.Fixed.bind
    | with_reducible apply Nestl.Fixed.ite
    | with_reducible (split <;> skip)
    | intro _)

end Nestl
