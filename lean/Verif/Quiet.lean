import Verif.Base
set_option autoImplicit false
/-
Programs that request no memory, construct no element and report no error.
-/
namespace Nestl
open Lean.Order

/-- Between `w` and `w'` no memory was requested, no element was constructed and nothing was reported. -/
structure Still {N : Type} (w w' : World N) : Prop where
  allocs : w'.nAlloc = w.nAlloc
  ctors : w'.nCtor = w.nCtor
  err : w'.err = w.err
  env : w'.env = w.env
  heap : ∀ a, w'.heap (.dyn a) ≠ none → w.heap (.dyn a) ≠ none

/-- `m` requests no memory, constructs no element and leaves the error object alone. -/
def Quiet {N α : Type} (m : M (World N) α) : Prop := ∀ w a w', Runs m w a w' → Still w w'

section
variable {N α β : Type}

theorem Still.refl (w : World N) : Still w w := ⟨rfl, rfl, rfl, rfl, fun _ h => h⟩
theorem Still.trans {w w1 w2 : World N} (h : Still w w1) (h' : Still w1 w2) : Still w w2 :=
  ⟨h'.allocs.trans h.allocs, h'.ctors.trans h.ctors, h'.err.trans h.err, h'.env.trans h.env,
    fun a ha => h.heap a (h'.heap a ha)⟩

theorem Still.upd {w : World N} {p : Ptr} {c : N} (h : w.heap p = some c) (d : Option N) :
    Still w (w.setHeap (upd w.heap p d)) := by
  refine ⟨rfl, rfl, rfl, rfl, fun a ha => ?_⟩
  by_cases e : Ptr.dyn a = p
  · subst e; rw [h]; exact Option.some_ne_none _
  · rwa [World.setHeap_heap, upd_other _ _ e] at ha

/-- The steps of a sequence of programs. -/
theorem runs_steps {m : M (World N) α} {k : α → M (World N) β} {w w2 : World N} {b : β} (hr : Runs (m >>= k) w b w2) :
    ∃ a w1, Runs m w a w1 ∧ Runs (k a) w1 b w2 := by
  have hw : wp (m >>= k) w fun b' w' => b' = b ∧ w' = w2 := wp_iff_runs.2 ⟨b, w2, hr, rfl, rfl⟩
  rw [wp_bind] at hw
  obtain ⟨a, w1, h1, h2⟩ := hw.runs
  obtain ⟨b', w', h3, rfl, rfl⟩ := h2.runs
  exact ⟨a, w1, h1, h3⟩

theorem Quiet.pure (a : α) : Quiet (pure a : M (World N) α) := by
  intro w a w' h; cases h; exact .refl _

theorem Quiet.fault (f : Fault) : Quiet (fault f : M (World N) α) := by
  intro w a w' h; cases h

theorem Quiet.bind {m : M (World N) α} {k : α → M (World N) β} (h : Quiet m) (hk : ∀ a, Quiet (k a)) :
    Quiet (m >>= k) := by
  intro w b w2 hr
  obtain ⟨a, w1, h1, h3⟩ := runs_steps hr
  exact (h _ _ _ h1).trans (hk a _ _ _ h3)

theorem Quiet.ite {c : Prop} {inst : Decidable c} {m n : M (World N) α} (hm : Quiet m) (hn : Quiet n) :
    Quiet (@_root_.ite _ c inst m n) := by split <;> assumption

theorem Quiet.rd (p : Ptr) : Quiet (rd p : M (World N) N) := by
  intro w a w' h
  unfold Runs Nestl.rd at h
  split at h
  · cases h
  · split at h
    · cases h; exact .refl _
    · cases h

theorem Quiet.modCell (p : Ptr) (f : N → N) : Quiet (modCell p f) := by
  intro w a w' h
  unfold Runs Nestl.modCell at h
  split at h
  · cases h
  · split at h
    · rename_i hc; cases h; exact .upd hc _
    · cases h

theorem Quiet.hasErr : Quiet (hasErr : M (World N) Bool) := by
  intro w a w' h; cases h; exact .refl _

theorem Quiet.assertM (b : Bool) : Quiet (assertM b : M (World N) Unit) := by
  cases b
  · exact Quiet.fault _
  · exact Quiet.pure _

theorem Quiet.cmp {K : Type} (lt : K → K → Bool) (a b : K) : Quiet (cmp lt a b : M (World N) Bool) := by
  intro w r w' h; cases h; exact ⟨rfl, rfl, rfl, rfl, fun _ h => h⟩

theorem Quiet.newObj (mk : Ptr → N) : Quiet (newObj mk) := by
  intro w r w' h; cases h
  exact ⟨rfl, rfl, rfl, rfl, fun a h => by simpa [upd] using h⟩

theorem Quiet.dropObj (p : Ptr) : Quiet (dropObj p : M (World N) Unit) := by
  intro w a w' h
  unfold Runs Nestl.dropObj at h
  split at h
  · rename_i hc; cases h; exact .upd hc _
  · cases h

theorem Quiet.freeCell (p : Ptr) (ok : N → Except Fault Unit) : Quiet (freeCell p ok) := by
  intro w a w' h
  unfold Runs Nestl.freeCell at h
  split at h
  · cases h; exact .refl _
  · cases h
  · split at h
    · cases h
    · rename_i hc
      split at h
      · cases h
      · cases h; exact .upd hc _

theorem Quiet.admissible : admissible (fun m : M (World N) α => Quiet m) := by
  have h1 : ∀ w : World N, Lean.Order.admissible (fun r : Option (Except Fault (α × World N)) =>
      ∀ a w', r = some (.ok (a, w')) → Still w w') :=
    fun w => admissible_flatOrder _ (by intro a w' h; cases h)
  exact admissible_pi_apply _ h1

theorem Quiet.admissible1 {A : Type} : Lean.Order.admissible (fun m : A → M (World N) α => ∀ a, Quiet (m a)) :=
  admissible_pi_apply _ fun _ => Quiet.admissible

theorem Quiet.admissible2 {A B : Type} :
    Lean.Order.admissible (fun m : A → B → M (World N) α => ∀ a b, Quiet (m a b)) :=
  admissible_pi_apply _ fun _ => Quiet.admissible1

theorem Quiet.admissible3 {A B C : Type} :
    Lean.Order.admissible (fun m : A → B → C → M (World N) α => ∀ a b c, Quiet (m a b c)) :=
  admissible_pi_apply _ fun _ => Quiet.admissible2

theorem Quiet.admissible4 {A B C D : Type} :
    Lean.Order.admissible (fun m : A → B → C → D → M (World N) α => ∀ a b c d, Quiet (m a b c d)) :=
  admissible_pi_apply _ fun _ => Quiet.admissible3
end

/-- Closes `Quiet` goals for operations that are known to be quiet. -/
syntax "quiet_leaf" : tactic
macro_rules | `(tactic| quiet_leaf) => `(tactic| with_reducible assumption)
macro_rules | `(tactic| quiet_leaf) => `(tactic| with_reducible exact Nestl.Quiet.pure _)
macro_rules | `(tactic| quiet_leaf) => `(tactic| with_reducible exact Nestl.Quiet.fault _)
macro_rules | `(tactic| quiet_leaf) => `(tactic| with_reducible exact Nestl.Quiet.rd _)
macro_rules | `(tactic| quiet_leaf) => `(tactic| with_reducible exact Nestl.Quiet.modCell _ _)
macro_rules | `(tactic| quiet_leaf) => `(tactic| with_reducible exact Nestl.Quiet.hasErr)
macro_rules | `(tactic| quiet_leaf) => `(tactic| with_reducible exact Nestl.Quiet.assertM _)
macro_rules | `(tactic| quiet_leaf) => `(tactic| with_reducible exact Nestl.Quiet.cmp _ _ _)
macro_rules | `(tactic| quiet_leaf) => `(tactic| with_reducible exact Nestl.Quiet.newObj _)
macro_rules | `(tactic| quiet_leaf) => `(tactic| with_reducible exact Nestl.Quiet.dropObj _)
macro_rules | `(tactic| quiet_leaf) => `(tactic| with_reducible exact Nestl.Quiet.freeCell _ _)

/-- Follows the structure of a program. -/
macro "quietly" : tactic => `(tactic|
  repeat' first
    | quiet_leaf
    | with_reducible apply Nestl.Quiet.bind
    | with_reducible apply Nestl.Quiet.ite
    | with_reducible (split <;> skip)
    | intro _)

end Nestl
