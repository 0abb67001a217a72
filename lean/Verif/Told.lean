import Verif.Quiet
set_option autoImplicit false
/-
How a program reports failures: the report says what the environment refused, nothing that was refused goes unreported, and
nothing more is requested after a refusal.
-/
namespace Nestl
open Lean.Order

section spec
variable {N : Type}

/-- All allocation requests from the state `w` up to number `n` (exclusive) were answered with an address. -/
def Served (w : World N) (n : Nat) : Prop := ∀ k, w.nAlloc ≤ k → k < n → w.env.addr k ≠ none

/-- All element constructions from the state `w` up to number `n` (exclusive) succeeded. -/
def Built (w : World N) (n : Nat) : Prop := ∀ k, w.nCtor ≤ k → k < n → w.env.ctor k = true

/-- The environment has no memory for the request number `k`, counting from the state `w`: it offers no address, or only one
that was in use in `w` or was handed out since. -/
def Denied (w : World N) (k : Nat) : Prop :=
  ∀ a, w.env.addr k = some a → w.heap (.dyn a) ≠ none ∨ ∃ j, w.nAlloc ≤ j ∧ j < k ∧ w.env.addr j = some a

/-- What a program that starts in `w` with a fresh error object and ends in `w'` has reported.  `B` stands for further reasons
to refuse memory. -/
inductive Report (B : Prop) (w w' : World N) : Option Err → Prop
  | success : Served w w'.nAlloc → Built w w'.nCtor → Report B w w' none
  | badAlloc (k : Nat) : w.nAlloc ≤ k → w'.nAlloc = k + 1 → Served w k → Built w w'.nCtor → Denied w k ∨ B →
      Report B w w' (some .badAlloc)
  | ctorFailed (k : Nat) : w.nCtor ≤ k → w'.nCtor = k + 1 → Served w w'.nAlloc → Built w k → w.env.ctor k = false →
      Report B w w' (some .ctorFailed)

/-- A report together with the bookkeeping about requests. -/
structure Outcome (B : Prop) (w w' : World N) : Prop where
  env : w'.env = w.env
  allocs : w.nAlloc ≤ w'.nAlloc
  ctors : w.nCtor ≤ w'.nCtor
  heap : ∀ a, w'.heap (.dyn a) ≠ none →
    w.heap (.dyn a) ≠ none ∨ ∃ j, w.nAlloc ≤ j ∧ j < w'.nAlloc ∧ w.env.addr j = some a
  report : Report B w w' w'.err

end spec

section
variable {N α β : Type} {B : Prop}

/-- `m`, started with a fresh error object, reports what was refused and makes no request after a refusal. -/
def Told (B : Prop) (m : M (World N) α) : Prop := ∀ w a w', Runs m w a w' → w.err = none → Outcome B w w'

/-- `m`, started with an error reported, makes no request. -/
def Stops (m : M (World N) α) : Prop := ∀ w a w', Runs m w a w' → w.err ≠ none → Still w w'

theorem Still.outcome {w w' : World N} (h : Still w w') (he : w.err = none) : Outcome B w w' := by
  refine ⟨h.env, by rw [h.allocs]; exact Nat.le_refl _, by rw [h.ctors]; exact Nat.le_refl _,
    fun a ha => .inl (h.heap a ha), ?_⟩
  rw [h.err, he]
  refine .success ?_ ?_
  · intro k h1 h2; rw [h.allocs] at h2; omega
  · intro k h1 h2; rw [h.ctors] at h2; omega

theorem Outcome.still {w w1 w2 : World N} (h : Outcome B w w1) (h' : Still w1 w2) : Outcome B w w2 := by
  refine ⟨h'.env.trans h.env, by rw [h'.allocs]; exact h.allocs, by rw [h'.ctors]; exact h.ctors, ?_, ?_⟩
  · intro a ha
    rcases h.heap a (h'.heap a ha) with h1 | ⟨j, h1, h2, h3⟩
    · exact .inl h1
    · exact .inr ⟨j, h1, by rw [h'.allocs]; exact h2, h3⟩
  · rw [h'.err]
    have hr := h.report
    generalize w1.err = e at hr ⊢
    cases hr with
    | success a b => exact .success (by rw [h'.allocs]; exact a) (by rw [h'.ctors]; exact b)
    | badAlloc k a b c d e => exact .badAlloc k a (by rw [h'.allocs]; exact b) c (by rw [h'.ctors]; exact d) e
    | ctorFailed k a b c d e => exact .ctorFailed k a (by rw [h'.ctors]; exact b) (by rw [h'.allocs]; exact c) d e

theorem Served.append {w w1 : World N} {n : Nat} (he : w1.env = w.env) (h : Served w w1.nAlloc) (h' : Served w1 n) :
    Served w n := by
  intro k h1 h2
  by_cases h3 : k < w1.nAlloc
  · exact h k h1 h3
  · have := h' k (by omega) h2
    rwa [he] at this

theorem Built.append {w w1 : World N} {n : Nat} (he : w1.env = w.env) (h : Built w w1.nCtor) (h' : Built w1 n) :
    Built w n := by
  intro k h1 h2
  by_cases h3 : k < w1.nCtor
  · exact h k h1 h3
  · have := h' k (by omega) h2
    rwa [he] at this

theorem Outcome.trans {w w1 w2 : World N} (h : Outcome B w w1) (h0 : w1.err = none) (h' : Outcome B w1 w2) :
    Outcome B w w2 := by
  have ha := h.allocs
  have hc := h.ctors
  have ha' := h'.allocs
  have hc' := h'.ctors
  refine ⟨h'.env.trans h.env, by omega, by omega, ?_, ?_⟩
  · intro a h1
    rcases h'.heap a h1 with h2 | ⟨j, h2, h3, h4⟩
    · rcases h.heap a h2 with h3 | ⟨j, h3, h4, h5⟩
      · exact .inl h3
      · exact .inr ⟨j, h3, by omega, h5⟩
    · rw [h.env] at h4
      exact .inr ⟨j, by omega, h3, h4⟩
  · have hr := h.report
    rw [h0] at hr
    obtain ⟨hs, hb⟩ : Served w w1.nAlloc ∧ Built w w1.nCtor := by
      cases hr with | success a b => exact ⟨a, b⟩
    cases hq : w2.err with
    | none =>
      have hr2 := h'.report
      rw [hq] at hr2
      cases hr2 with | success a b => exact .success (hs.append h.env a) (hb.append h.env b)
    | some e =>
      have hr2 := h'.report
      rw [hq] at hr2
      cases hr2 with
      | badAlloc k a b c d e =>
        refine .badAlloc k (by omega) b (hs.append h.env c) (hb.append h.env d) ?_
        rcases e with e | e
        · left
          intro x hx
          rw [← h.env] at hx
          rcases e x hx with h2 | ⟨j, h2, h3, h4⟩
          · rcases h.heap x h2 with h3 | ⟨j, h3, h4, h5⟩
            · exact .inl h3
            · exact .inr ⟨j, h3, by omega, h5⟩
          · rw [h.env] at h4
            exact .inr ⟨j, by omega, h3, h4⟩
        · exact .inr e
      | ctorFailed k a b c d e =>
        rw [h.env] at e
        exact .ctorFailed k (by omega) b (hs.append h.env c) (hb.append h.env d) e

theorem Quiet.told {m : M (World N) α} (h : Quiet m) : Told B m := fun _ _ _ hr he => (h _ _ _ hr).outcome he
theorem Quiet.stops {m : M (World N) α} (h : Quiet m) : Stops m := fun _ _ _ hr _ => h _ _ _ hr

theorem Told.bind {m : M (World N) α} {k : α → M (World N) β} (h : Told B m) (hk : ∀ a, Told B (k a))
    (hs : ∀ a, Stops (k a)) : Told B (m >>= k) := by
  intro w b w2 hr he
  obtain ⟨a, w1, h1, h3⟩ := runs_steps hr
  have ho := h _ _ _ h1 he
  by_cases hn : w1.err = none
  · exact ho.trans hn (hk a _ _ _ h3 hn)
  · exact ho.still (hs a _ _ _ h3 hn)

theorem Told.bindQ {m : M (World N) α} {k : α → M (World N) β} (h : Quiet m) (hk : ∀ a, Told B (k a)) :
    Told B (m >>= k) := by
  intro w b w2 hr he
  obtain ⟨a, w1, h1, h3⟩ := runs_steps hr
  have ho := h _ _ _ h1
  exact (ho.outcome he).trans (ho.err.trans he) (hk a _ _ _ h3 (ho.err.trans he))

/-- A step followed by a quiet one. -/
theorem Told.then {m : M (World N) α} {k : α → M (World N) β} (h : Told B m) (hk : ∀ a, Quiet (k a)) : Told B (m >>= k) :=
  .bind h (fun a => (hk a).told) fun a => (hk a).stops

theorem Stops.bind {m : M (World N) α} {k : α → M (World N) β} (h : Stops m) (hk : ∀ a, Stops (k a)) :
    Stops (m >>= k) := by
  intro w b w2 hr he
  obtain ⟨a, w1, h1, h3⟩ := runs_steps hr
  have ho := h _ _ _ h1 he
  exact ho.trans (hk a _ _ _ h3 (by rw [ho.err]; exact he))

theorem Stops.bindQ {m : M (World N) α} {k : α → M (World N) β} (h : Quiet m) (hk : ∀ a, Stops (k a)) :
    Stops (m >>= k) := .bind h.stops hk

/-- `if (err) n` -/
theorem Stops.check {n m : M (World N) α} (hn : Stops n) :
    Stops (hasErr >>= fun b => if b = true then n else m) := by
  intro w a w' hr he
  obtain ⟨b, w1, h1, h3⟩ := runs_steps hr
  cases h1
  rw [if_pos (Option.isSome_iff_ne_none.2 he)] at h3
  exact hn _ _ _ h3 he

theorem Told.ite {c : Prop} {inst : Decidable c} {m n : M (World N) α} (hm : Told B m) (hn : Told B n) :
    Told B (@_root_.ite _ c inst m n) := by split <;> assumption

/-- `if (err) n else m` after a step that may fail. -/
theorem Told.check {l : M (World N) β} {n : β → M (World N) α} {m : β → M (World N) α} (hl : Told B l) (hn : ∀ b, Quiet (n b))
    (hm : ∀ b, Told B (m b)) : Told B (l >>= fun b => hasErr >>= fun e => if e = true then n b else m b) :=
  .bind hl (fun b => .bindQ .hasErr fun e => .ite (hn b).told (hm b)) fun b => .check (hn b).stops

theorem Stops.ite {c : Prop} {inst : Decidable c} {m n : M (World N) α} (hm : Stops m) (hn : Stops n) :
    Stops (@_root_.ite _ c inst m n) := by split <;> assumption

theorem Told.tryCtor : Told B (tryCtor : M (World N) Bool) := by
  intro w a w' h he
  unfold Runs Nestl.tryCtor at h
  by_cases hc : w.env.ctor w.nCtor = true
  · simp only [hc, if_true] at h
    cases h
    refine ⟨rfl, Nat.le_refl _, Nat.le_succ _, fun _ h => .inl h, ?_⟩
    show Report B w _ w.err
    rw [he]
    refine .success (fun k h1 h2 => absurd h2 (Nat.not_lt.2 h1)) fun k h1 h2 => ?_
    have : k = w.nCtor := by change k < w.nCtor + 1 at h2; omega
    rw [this]; exact hc
  · simp only [hc] at h
    cases h
    refine ⟨rfl, Nat.le_refl _, Nat.le_succ _, fun _ h => .inl h, ?_⟩
    exact .ctorFailed w.nCtor (Nat.le_refl _) rfl (fun k h1 h2 => absurd h2 (Nat.not_lt.2 h1))
      (fun k h1 h2 => absurd h2 (Nat.not_lt.2 h1)) (by simpa using hc)

theorem Told.allocCell (f : N → N) : Told B (allocCell f) := by
  intro w p w' h he
  unfold Runs Nestl.allocCell at h
  have hb : Built w w.nCtor := fun k h1 h2 => absurd h2 (Nat.not_lt.2 h1)
  have hs : Served w w.nAlloc := fun k h1 h2 => absurd h2 (Nat.not_lt.2 h1)
  cases hc : w.env.addr w.nAlloc with
  | none =>
    simp only [hc] at h
    cases h
    refine ⟨rfl, Nat.le_succ _, Nat.le_refl _, fun _ h => .inl h, ?_⟩
    exact .badAlloc w.nAlloc (Nat.le_refl _) rfl hs hb (.inl fun a ha => by rw [hc] at ha; cases ha)
  | some a =>
    cases hd : w.heap (.dyn a) with
    | none =>
      simp only [hc, hd] at h
      cases h
      refine ⟨rfl, Nat.le_succ _, Nat.le_refl _, fun x hx => ?_, ?_⟩
      · by_cases e : x = a
        · subst e
          exact .inr ⟨w.nAlloc, Nat.le_refl _, Nat.lt_succ_self _, hc⟩
        · left
          rwa [World.setHeap_heap, upd_other _ _ (by simpa using e)] at hx
      · show Report B w _ w.err
        rw [he]
        refine .success (fun k h1 h2 => ?_) hb
        have : k = w.nAlloc := by change k < w.nAlloc + 1 at h2; omega
        rw [this, hc]; exact Option.some_ne_none _
    | some c =>
      simp only [hc, hd] at h
      cases h
      refine ⟨rfl, Nat.le_succ _, Nat.le_refl _, fun _ h => .inl h, ?_⟩
      refine .badAlloc w.nAlloc (Nat.le_refl _) rfl hs hb (.inl fun x hx => ?_)
      rw [hc] at hx; cases hx
      exact .inl (by rw [hd]; exact Option.some_ne_none _)

theorem Told.admissible : admissible (fun m : M (World N) α => Told B m) := by
  have h1 : ∀ w : World N, Lean.Order.admissible (fun r : Option (Except Fault (α × World N)) =>
      ∀ a w', r = some (.ok (a, w')) → w.err = none → Outcome B w w') :=
    fun w => admissible_flatOrder _ (by intro a w' h; cases h)
  exact admissible_pi_apply _ h1

theorem Told.admissible1 {A : Type} : Lean.Order.admissible (fun m : A → M (World N) α => ∀ a, Told B (m a)) :=
  admissible_pi_apply _ fun _ => Told.admissible

theorem Told.admissible2 {A C : Type} :
    Lean.Order.admissible (fun m : A → C → M (World N) α => ∀ a b, Told B (m a b)) :=
  admissible_pi_apply _ fun _ => Told.admissible1

theorem Told.admissible3 {A C D : Type} :
    Lean.Order.admissible (fun m : A → C → D → M (World N) α => ∀ a b c, Told B (m a b c)) :=
  admissible_pi_apply _ fun _ => Told.admissible2

end

/-- Closes `Told` goals for operations that are known to report what happens. -/
syntax "told_leaf" : tactic
macro_rules | `(tactic| told_leaf) => `(tactic| with_reducible assumption)
macro_rules | `(tactic| told_leaf) => `(tactic| with_reducible exact Nestl.Told.tryCtor)
macro_rules | `(tactic| told_leaf) => `(tactic| with_reducible exact Nestl.Told.allocCell _)

/-- Follows the structure of a program. -/
macro "tells" : tactic => `(tactic|
  repeat' first
    | told_leaf
    | (with_reducible apply Nestl.Quiet.told; quietly; done)
    | (with_reducible apply Nestl.Quiet.stops; quietly; done)
    | (with_reducible refine Nestl.Stops.check (Nestl.Quiet.stops ?_); quietly; done)
    | (with_reducible refine Nestl.Told.bindQ ?_ ?_; focus (quietly; done))
    | (with_reducible refine Nestl.Stops.bindQ ?_ ?_; focus (quietly; done))
    | with_reducible refine Nestl.Told.bind ?_ ?_ ?_
    | with_reducible apply Nestl.Told.ite
    | with_reducible apply Nestl.Stops.ite
    | with_reducible (split <;> skip)
    | intro _)

end Nestl
