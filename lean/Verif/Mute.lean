import Verif.Quiet
set_option autoImplicit false
/-
Programs that call no comparator.
-/
namespace Nestl
open Lean.Order

/-- `m` calls no comparator. -/
def Mute {N α : Type} (m : M (World N) α) : Prop := ∀ w a w', Runs m w a w' → w'.nCmp = w.nCmp

section
variable {N α β : Type}

theorem Mute.pure (a : α) : Mute (pure a : M (World N) α) := by
  intro w a w' h; cases h; rfl

theorem Mute.fault (f : Fault) : Mute (fault f : M (World N) α) := by
  intro w a w' h; cases h

theorem Mute.bind {m : M (World N) α} {k : α → M (World N) β} (h : Mute m) (hk : ∀ a, Mute (k a)) : Mute (m >>= k) := by
  intro w b w2 hr
  obtain ⟨a, w1, h1, h3⟩ := runs_steps hr
  exact (hk a _ _ _ h3).trans (h _ _ _ h1)

theorem Mute.ite {c : Prop} {inst : Decidable c} {m n : M (World N) α} (hm : Mute m) (hn : Mute n) :
    Mute (@_root_.ite _ c inst m n) := by split <;> assumption

theorem Mute.rd (p : Ptr) : Mute (rd p : M (World N) N) := by
  intro w a w' h
  unfold Runs Nestl.rd at h
  split at h
  · cases h
  · split at h
    · cases h; rfl
    · cases h

theorem Mute.modCell (p : Ptr) (f : N → N) : Mute (modCell p f) := by
  intro w a w' h
  unfold Runs Nestl.modCell at h
  split at h
  · cases h
  · split at h
    · cases h; rfl
    · cases h

theorem Mute.hasErr : Mute (hasErr : M (World N) Bool) := by
  intro w a w' h; cases h; rfl

theorem Mute.assertM (b : Bool) : Mute (assertM b : M (World N) Unit) := by
  cases b
  · exact Mute.fault _
  · exact Mute.pure _

theorem Mute.newObj (mk : Ptr → N) : Mute (newObj mk) := by
  intro w r w' h; cases h; rfl

theorem Mute.dropObj (p : Ptr) : Mute (dropObj p : M (World N) Unit) := by
  intro w a w' h
  unfold Runs Nestl.dropObj at h
  split at h
  · cases h; rfl
  · cases h

theorem Mute.freeCell (p : Ptr) (ok : N → Except Fault Unit) : Mute (freeCell p ok) := by
  intro w a w' h
  unfold Runs Nestl.freeCell at h
  split at h
  · cases h; rfl
  · cases h
  · split at h
    · cases h
    · split at h
      · cases h
      · cases h; rfl

theorem Mute.tryCtor : Mute (tryCtor : M (World N) Bool) := by
  intro w a w' h
  unfold Runs Nestl.tryCtor at h
  split at h <;> (cases h; rfl)

theorem Mute.allocCell (f : N → N) : Mute (allocCell f) := by
  intro w a w' h
  unfold Runs Nestl.allocCell at h
  repeat' split at h
  all_goals (cases h; rfl)

theorem Mute.admissible : admissible (fun m : M (World N) α => Mute m) := by
  have h1 : ∀ w : World N, Lean.Order.admissible (fun r : Option (Except Fault (α × World N)) =>
      ∀ a w', r = some (.ok (a, w')) → w'.nCmp = w.nCmp) :=
    fun w => admissible_flatOrder _ (by intro a w' h; cases h)
  exact admissible_pi_apply _ h1

theorem Mute.admissible1 {A : Type} : Lean.Order.admissible (fun m : A → M (World N) α => ∀ a, Mute (m a)) :=
  admissible_pi_apply _ fun _ => Mute.admissible

theorem Mute.admissible2 {A B : Type} :
    Lean.Order.admissible (fun m : A → B → M (World N) α => ∀ a b, Mute (m a b)) :=
  admissible_pi_apply _ fun _ => Mute.admissible1

theorem Mute.admissible3 {A B C : Type} :
    Lean.Order.admissible (fun m : A → B → C → M (World N) α => ∀ a b c, Mute (m a b c)) :=
  admissible_pi_apply _ fun _ => Mute.admissible2

theorem Mute.admissible4 {A B C D : Type} :
    Lean.Order.admissible (fun m : A → B → C → D → M (World N) α => ∀ a b c d, Mute (m a b c d)) :=
  admissible_pi_apply _ fun _ => Mute.admissible3
end

/-- Closes `Mute` goals for operations that are known. -/
syntax "mute_leaf" : tactic
macro_rules | `(tactic| mute_leaf) => `(tactic| with_reducible assumption)
macro_rules | `(tactic| mute_leaf) => `(tactic| with_reducible exact Nestl.Mute.pure _)
macro_rules | `(tactic| mute_leaf) => `(tactic| with_reducible exact Nestl.Mute.fault _)
macro_rules | `(tactic| mute_leaf) => `(tactic| with_reducible exact Nestl.Mute.rd _)
macro_rules | `(tactic| mute_leaf) => `(tactic| with_reducible exact Nestl.Mute.modCell _ _)
macro_rules | `(tactic| mute_leaf) => `(tactic| with_reducible exact Nestl.Mute.hasErr)
macro_rules | `(tactic| mute_leaf) => `(tactic| with_reducible exact Nestl.Mute.assertM _)
macro_rules | `(tactic| mute_leaf) => `(tactic| with_reducible exact Nestl.Mute.tryCtor)
macro_rules | `(tactic| mute_leaf) => `(tactic| with_reducible exact Nestl.Mute.allocCell _)
macro_rules | `(tactic| mute_leaf) => `(tactic| with_reducible exact Nestl.Mute.newObj _)
macro_rules | `(tactic| mute_leaf) => `(tactic| with_reducible exact Nestl.Mute.dropObj _)
macro_rules | `(tactic| mute_leaf) => `(tactic| with_reducible exact Nestl.Mute.freeCell _ _)

/-- Follows the structure of a program. -/
macro "mutes" : tactic => `(tactic|
  repeat' first
    | mute_leaf
    | with_reducible apply Nestl.Mute.bind
    | with_reducible apply Nestl.Mute.ite
    | with_reducible (split <;> skip)
    | intro _)

end Nestl
