import Verif.Told
set_option autoImplicit false
/-
How many allocation requests and element constructions a program makes, and which memory it keeps.
-/
namespace Nestl
open Lean.Order

section
variable {N α β : Type}

/-- `m` makes no request, constructs nothing, reports nothing and gives no memory back. -/
def Keep (m : M (World N) α) : Prop :=
  ∀ w a w', Runs m w a w' → Still w w' ∧ ∀ x, w.heap (.dyn x) ≠ none → w'.heap (.dyn x) ≠ none

theorem Keep.quiet {m : M (World N) α} (h : Keep m) : Quiet m := fun w a w' hr => (h w a w' hr).1

theorem Keep.pure (a : α) : Keep (pure a : M (World N) α) := by
  intro w a w' h; cases h; exact ⟨.refl _, fun _ h => h⟩

theorem Keep.fault (f : Fault) : Keep (fault f : M (World N) α) := by
  intro w a w' h; cases h

theorem Keep.bind {m : M (World N) α} {k : α → M (World N) β} (h : Keep m) (hk : ∀ a, Keep (k a)) : Keep (m >>= k) := by
  intro w b w2 hr
  obtain ⟨a, w1, h1, h3⟩ := runs_steps hr
  exact ⟨(h _ _ _ h1).1.trans (hk a _ _ _ h3).1, fun x hx => (hk a _ _ _ h3).2 x ((h _ _ _ h1).2 x hx)⟩

theorem Keep.ite {c : Prop} {inst : Decidable c} {m n : M (World N) α} (hm : Keep m) (hn : Keep n) :
    Keep (@_root_.ite _ c inst m n) := by split <;> assumption

theorem Keep.rd (p : Ptr) : Keep (rd p : M (World N) N) := by
  intro w a w' h
  refine ⟨Quiet.rd p w a w' h, ?_⟩
  unfold Runs Nestl.rd at h
  split at h
  · cases h
  · split at h
    · cases h; exact fun _ h => h
    · cases h

theorem Keep.modCell (p : Ptr) (f : N → N) : Keep (modCell p f) := by
  intro w a w' h
  refine ⟨Quiet.modCell p f w a w' h, ?_⟩
  unfold Runs Nestl.modCell at h
  split at h
  · cases h
  · split at h
    · cases h
      intro x hx
      by_cases e : Ptr.dyn x = p
      · subst e; rw [World.setHeap_heap, upd_same]; exact Option.some_ne_none _
      · rwa [World.setHeap_heap, upd_other _ _ e]
    · cases h

theorem Keep.hasErr : Keep (hasErr : M (World N) Bool) := by
  intro w a w' h; cases h; exact ⟨.refl _, fun _ h => h⟩

theorem Keep.assertM (b : Bool) : Keep (assertM b : M (World N) Unit) := by
  cases b
  · exact Keep.fault _
  · exact Keep.pure _

theorem Keep.cmp {K : Type} (lt : K → K → Bool) (a b : K) : Keep (cmp lt a b : M (World N) Bool) := by
  intro w r w' h; cases h; exact ⟨⟨rfl, rfl, rfl, rfl, fun _ h => h⟩, fun _ h => h⟩

theorem Keep.newObj (mk : Ptr → N) : Keep (newObj mk) := by
  intro w r w' h
  refine ⟨Quiet.newObj mk w r w' h, ?_⟩
  cases h
  intro x hx
  simpa [upd] using hx

theorem Keep.admissible : admissible (fun m : M (World N) α => Keep m) := by
  have h1 : ∀ w : World N, Lean.Order.admissible (fun r : Option (Except Fault (α × World N)) =>
      ∀ a w', r = some (.ok (a, w')) → Still w w' ∧ ∀ x, w.heap (.dyn x) ≠ none → w'.heap (.dyn x) ≠ none) :=
    fun w => admissible_flatOrder _ (by intro a w' h; cases h)
  exact admissible_pi_apply _ h1

theorem Keep.admissible1 {A : Type} : Lean.Order.admissible (fun m : A → M (World N) α => ∀ a, Keep (m a)) :=
  admissible_pi_apply _ fun _ => Keep.admissible

theorem Keep.admissible2 {A B : Type} :
    Lean.Order.admissible (fun m : A → B → M (World N) α => ∀ a b, Keep (m a b)) :=
  admissible_pi_apply _ fun _ => Keep.admissible1

theorem Keep.admissible3 {A B C : Type} :
    Lean.Order.admissible (fun m : A → B → C → M (World N) α => ∀ a b c, Keep (m a b c)) :=
  admissible_pi_apply _ fun _ => Keep.admissible2
end

/-- Closes `Keep` goals for operations that are known. -/
syntax "keep_leaf" : tactic
macro_rules | `(tactic| keep_leaf) => `(tactic| with_reducible assumption)
macro_rules | `(tactic| keep_leaf) => `(tactic| with_reducible exact Nestl.Keep.pure _)
macro_rules | `(tactic| keep_leaf) => `(tactic| with_reducible exact Nestl.Keep.fault _)
macro_rules | `(tactic| keep_leaf) => `(tactic| with_reducible exact Nestl.Keep.rd _)
macro_rules | `(tactic| keep_leaf) => `(tactic| with_reducible exact Nestl.Keep.modCell _ _)
macro_rules | `(tactic| keep_leaf) => `(tactic| with_reducible exact Nestl.Keep.hasErr)
macro_rules | `(tactic| keep_leaf) => `(tactic| with_reducible exact Nestl.Keep.assertM _)
macro_rules | `(tactic| keep_leaf) => `(tactic| with_reducible exact Nestl.Keep.cmp _ _ _)
macro_rules | `(tactic| keep_leaf) => `(tactic| with_reducible exact Nestl.Keep.newObj _)

/-- Follows the structure of a program. -/
macro "keeps" : tactic => `(tactic|
  repeat' first
    | keep_leaf
    | with_reducible apply Nestl.Keep.bind
    | with_reducible apply Nestl.Keep.ite
    | with_reducible (split <;> skip)
    | intro _)

section
variable {N α β : Type}

/-- Between `w` and `w'` the cells `l` were requested and nothing was given back; if `e`, as many elements were constructed. -/
structure Grown (e : Prop) (w w' : World N) (l : List Nat) : Prop where
  allocs : w'.nAlloc = w.nAlloc + l.length
  ctors : e → w'.nCtor = w.nCtor + l.length
  nodup : l.Nodup
  fresh : ∀ a ∈ l, w.heap (.dyn a) = none
  heap : ∀ a, w'.heap (.dyn a) ≠ none ↔ w.heap (.dyn a) ≠ none ∨ a ∈ l

/-- `m`, if it starts and ends without an error, keeps all the memory it has requested (and, if `e`, has constructed as
many elements). -/
def Grows (e : Prop) (m : M (World N) α) : Prop :=
  ∀ w a w', Runs m w a w' → w.err = none → w'.err = none → ∃ l, Grown e w w' l

variable {e : Prop}

theorem Keep.grows {m : M (World N) α} (h : Keep m) : Grows e m := by
  intro w a w' hr _ _
  obtain ⟨h1, h2⟩ := h w a w' hr
  exact ⟨[], h1.allocs, fun _ => h1.ctors, .nil, by simp, fun x => ⟨fun hx => .inl (h1.heap x hx), fun hx => h2 x (by simpa using hx)⟩⟩

theorem Grown.trans {w w1 w2 : World N} {l l' : List Nat} (h : Grown e w w1 l) (h' : Grown e w1 w2 l') : Grown e w w2 (l ++ l') := by
  have hd : ∀ a ∈ l, a ∉ l' := fun a ha ha' => (h.heap a).2 (.inr ha) (h'.fresh a ha')
  refine ⟨?_, ?_, ?_, ?_, ?_⟩
  · rw [h'.allocs, h.allocs, List.length_append]; omega
  · intro x; rw [h'.ctors x, h.ctors x, List.length_append]; omega
  · exact List.nodup_append.2 ⟨h.nodup, h'.nodup, fun a ha b hb x => hd a ha (x ▸ hb)⟩
  · intro a ha
    rcases List.mem_append.1 ha with ha | ha
    · exact h.fresh a ha
    · apply Classical.byContradiction
      intro hc
      exact (h.heap a).2 (.inl hc) (h'.fresh a ha)
  · intro a
    rw [h'.heap, h.heap, List.mem_append, or_assoc]

theorem Grows.bind {m : M (World N) α} {k : α → M (World N) β} (h : Grows e m) (hk : ∀ a, Grows e (k a))
    (hs : ∀ a, Stops (k a)) : Grows e (m >>= k) := by
  intro w b w2 hr he he'
  obtain ⟨a, w1, h1, h3⟩ := runs_steps hr
  by_cases hn : w1.err = none
  · obtain ⟨l, hl⟩ := h _ _ _ h1 he hn
    obtain ⟨l', hl'⟩ := hk a _ _ _ h3 hn he'
    exact ⟨_, hl.trans hl'⟩
  · rw [(hs a _ _ _ h3 hn).err] at he'
    exact absurd he' hn

theorem Grows.bindK {m : M (World N) α} {k : α → M (World N) β} (h : Keep m) (hk : ∀ a, Grows e (k a)) : Grows e (m >>= k) := by
  intro w b w2 hr he he'
  obtain ⟨a, w1, h1, h3⟩ := runs_steps hr
  have hn := (h _ _ _ h1).1.err.trans he
  obtain ⟨l, hl⟩ := h.grows _ _ _ h1 he hn
  obtain ⟨l', hl'⟩ := hk a _ _ _ h3 hn he'
  exact ⟨_, hl.trans hl'⟩

/-- A step followed by one that keeps everything. -/
theorem Grows.then {m : M (World N) α} {k : α → M (World N) β} (h : Grows e m) (hk : ∀ a, Keep (k a)) : Grows e (m >>= k) :=
  .bind h (fun a => (hk a).grows) fun a => (hk a).quiet.stops

theorem Grows.ite {c : Prop} {inst : Decidable c} {m n : M (World N) α} (hm : Grows e m) (hn : Grows e n) :
    Grows e (@_root_.ite _ c inst m n) := by split <;> assumption

/-- `if (err) n else m` after a step that may fail: `n` may give memory back. -/
theorem Grows.check {l : M (World N) β} {n : β → M (World N) α} {m : β → M (World N) α} (hl : Grows e l) (hn : ∀ b, Quiet (n b))
    (hm : ∀ b, Grows e (m b)) : Grows e (l >>= fun b => hasErr >>= fun x => if x = true then n b else m b) := by
  refine .bind hl (fun b => ?_) fun b => .check (hn b).stops
  intro w a w' hr he he'
  obtain ⟨c, w1, h1, h3⟩ := runs_steps hr
  cases h1
  rw [if_neg (by rw [he]; simp)] at h3
  exact hm b _ _ _ h3 he he'

/-- The same with an error that was reported before. -/
theorem Grows.checked {n m : M (World N) α} (hm : Grows e m) : Grows e (hasErr >>= fun x => if x = true then n else m) := by
  intro w a w' hr he he'
  obtain ⟨c, w1, h1, h3⟩ := runs_steps hr
  cases h1
  rw [if_neg (by rw [he]; simp)] at h3
  exact hm _ _ _ h3 he he'

theorem Grows.allocCell (f : N → N) : Grows False (allocCell f) := by
  intro w p w' h he he'
  unfold Runs Nestl.allocCell at h
  split at h
  · cases h; cases he'
  · rename_i a ha
    split at h
    · cases h; cases he'
    · rename_i hc
      cases h
      refine ⟨[a], rfl, fun x => x.elim, by simp, by simpa using hc, fun x => ?_⟩
      by_cases e : x = a
      · subst e; simp [World.setHeap]
      · simp [World.setHeap, upd, e]

theorem Grows.tryCtor : Grows False (tryCtor : M (World N) Bool) := by
  intro w p w' h he he'
  unfold Runs Nestl.tryCtor at h
  split at h <;> (cases h; exact ⟨[], rfl, fun x => x.elim, .nil, by simp, by simp⟩)

theorem Grows.admissible : admissible (fun m : M (World N) α => Grows e m) := by
  have h1 : ∀ w : World N, Lean.Order.admissible (fun r : Option (Except Fault (α × World N)) =>
      ∀ a w', r = some (.ok (a, w')) → w.err = none → w'.err = none → ∃ l, Grown e w w' l) :=
    fun w => admissible_flatOrder _ (by intro a w' h; cases h)
  exact admissible_pi_apply _ h1

theorem Grows.admissible1 {A : Type} : Lean.Order.admissible (fun m : A → M (World N) α => ∀ a, Grows e (m a)) :=
  admissible_pi_apply _ fun _ => Grows.admissible

theorem Grows.admissible2 {A C : Type} :
    Lean.Order.admissible (fun m : A → C → M (World N) α => ∀ a b, Grows e (m a b)) :=
  admissible_pi_apply _ fun _ => Grows.admissible1

theorem Grows.admissible3 {A C D : Type} :
    Lean.Order.admissible (fun m : A → C → D → M (World N) α => ∀ a b c, Grows e (m a b c)) :=
  admissible_pi_apply _ fun _ => Grows.admissible2

/-! ### A number known in advance -/

/-- `m`, started without an error, makes at most `i` requests and constructs at most `j` elements, and exactly as many if it
ends without an error. -/
def Costs (i j : Nat) (m : M (World N) α) : Prop :=
  ∀ w a w', Runs m w a w' → w.err = none → w'.nAlloc ≤ w.nAlloc + i ∧ w'.nCtor ≤ w.nCtor + j ∧
    (w'.err = none → w'.nAlloc = w.nAlloc + i ∧ w'.nCtor = w.nCtor + j)

theorem Quiet.costs {m : M (World N) α} (h : Quiet m) : Costs 0 0 m := by
  intro w a w' hr _
  have := h w a w' hr
  rw [this.allocs, this.ctors]
  exact ⟨Nat.le_refl _, Nat.le_refl _, fun _ => ⟨rfl, rfl⟩⟩

theorem Costs.allocCell (f : N → N) : Costs 1 0 (allocCell f) := by
  intro w p w' h he
  unfold Runs Nestl.allocCell at h
  split at h
  · cases h; exact ⟨Nat.le_refl _, Nat.le_refl _, fun _ => ⟨rfl, rfl⟩⟩
  · split at h <;> (cases h; exact ⟨Nat.le_refl _, Nat.le_refl _, fun _ => ⟨rfl, rfl⟩⟩)

theorem Costs.tryCtor : Costs 0 1 (tryCtor : M (World N) Bool) := by
  intro w p w' h he
  unfold Runs Nestl.tryCtor at h
  split at h <;> (cases h; exact ⟨Nat.le_refl _, Nat.le_refl _, fun _ => ⟨rfl, rfl⟩⟩)

variable {i j i' j' : Nat}

theorem Costs.bindQ {m : M (World N) α} {k : α → M (World N) β} (h : Quiet m) (hk : ∀ a, Costs i j (k a)) :
    Costs i j (m >>= k) := by
  intro w b w2 hr he
  obtain ⟨a, w1, h1, h3⟩ := runs_steps hr
  have h4 := h _ _ _ h1
  have := hk a _ _ _ h3 (h4.err.trans he)
  rwa [h4.allocs, h4.ctors] at this

theorem Costs.then {m : M (World N) α} {k : α → M (World N) β} (h : Costs i j m) (hk : ∀ a, Quiet (k a)) :
    Costs i j (m >>= k) := by
  intro w b w2 hr he
  obtain ⟨a, w1, h1, h3⟩ := runs_steps hr
  have h4 := hk a _ _ _ h3
  have := h _ _ _ h1 he
  rwa [← h4.allocs, ← h4.ctors, ← h4.err] at this

theorem Costs.check {l : M (World N) β} {n : β → M (World N) α} {m : β → M (World N) α} (hl : Costs i j l)
    (hn : ∀ b, Quiet (n b)) (hm : ∀ b, Costs i' j' (m b)) :
    Costs (i' + i) (j' + j) (l >>= fun b => hasErr >>= fun e => if e = true then n b else m b) := by
  intro w a w2 hr he
  obtain ⟨b, w1, h1, h3⟩ := runs_steps hr
  obtain ⟨e, w3, h4, h5⟩ := runs_steps h3
  cases h4
  obtain ⟨a1, a2, a3⟩ := hl _ _ _ h1 he
  by_cases hn1 : w1.err = none
  · rw [if_neg (by rw [hn1]; simp)] at h5
    obtain ⟨b1, b2, b3⟩ := hm b _ _ _ h5 hn1
    obtain ⟨a4, a5⟩ := a3 hn1
    refine ⟨by omega, by omega, fun h => ?_⟩
    have := b3 h
    omega
  · rw [if_pos (Option.isSome_iff_ne_none.2 hn1)] at h5
    have h6 := hn b _ _ _ h5
    rw [h6.allocs, h6.ctors, h6.err]
    exact ⟨by omega, by omega, fun h => absurd h hn1⟩

theorem Grows.even {e : Prop} {m : M (World N) α} (h : Grows False m) (hc : Costs i i m) : Grows e m := by
  intro w a w' hr he he'
  obtain ⟨l, hl⟩ := h w a w' hr he he'
  obtain ⟨h1, h2⟩ := (hc w a w' hr he).2.2 he'
  exact ⟨l, hl.allocs, fun _ => by have := hl.allocs; omega, hl.nodup, hl.fresh, hl.heap⟩

end
end Nestl
