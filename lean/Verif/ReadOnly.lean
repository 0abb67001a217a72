import Verif.Quiet
set_option autoImplicit false
/-
Programs that only read memory: which cells they read, and that their result depends on nothing else.
-/
namespace Nestl
open Lean.Order

/-- The memory `h'` has the same cells as `h` at the addresses `S`. -/
def SameAt {N : Type} (S : List Ptr) (h h' : Ptr → Option N) : Prop := ∀ p ∈ S, h' p = h p

/-- What a run of `m` from `w` with the result `a` and the final state `w'` may have done: it has read some cells `S` and called
the comparator `c` times, and wherever these cells have the same content `m` does and returns the same. -/
def OnlyRead {N α : Type} (m : M (World N) α) (w : World N) (a : α) (w' : World N) : Prop :=
  ∃ (S : List Ptr) (c : Nat), w' = w.addCmp c ∧ (∀ p ∈ S, w.heap p ≠ none) ∧
    ∀ w2 : World N, SameAt S w.heap w2.heap → Runs m w2 a (w2.addCmp c)

/-- `m` writes nothing, and its result depends only on the cells that it reads. -/
def ReadOnly {N α : Type} (m : M (World N) α) : Prop := ∀ w a w', Runs m w a w' → OnlyRead m w a w'

section
variable {N α β : Type}

theorem ReadOnly.pure (a : α) : ReadOnly (pure a : M (World N) α) := by
  intro w a w' h; cases h; exact ⟨[], 0, rfl, by simp, fun _ _ => rfl⟩

theorem ReadOnly.fault (f : Fault) : ReadOnly (fault f : M (World N) α) := by
  intro w a w' h; cases h

theorem runs_bind_split {m : M (World N) α} {k : α → M (World N) β} {w w1 w2 : World N} {a : α} {b : β}
    (h1 : Runs m w a w1) (h2 : Runs (k a) w1 b w2) : Runs (m >>= k) w b w2 := by
  have : wp (m >>= k) w fun b' w' => b' = b ∧ w' = w2 := by
    rw [wp_bind]
    exact wp_iff_runs.2 ⟨a, w1, h1, wp_iff_runs.2 ⟨b, w2, h2, rfl, rfl⟩⟩
  obtain ⟨b', w', h, rfl, rfl⟩ := this.runs
  exact h

theorem ReadOnly.bind {m : M (World N) α} {k : α → M (World N) β} (h : ReadOnly m) (hk : ∀ a, ReadOnly (k a)) :
    ReadOnly (m >>= k) := by
  intro w b w2 hr
  obtain ⟨a, w1, h1, h3⟩ := runs_steps hr
  obtain ⟨S, c, rfl, hS, hm⟩ := h _ _ _ h1
  obtain ⟨S', c', rfl, hS', hm'⟩ := hk a _ _ _ h3
  refine ⟨S ++ S', c + c', by simp, ?_, ?_⟩
  · intro p hp
    rcases List.mem_append.1 hp with hp | hp
    · exact hS p hp
    · exact hS' p hp
  · intro w3 hw
    have := runs_bind_split (hm w3 fun p hp => hw p (List.mem_append.2 (Or.inl hp)))
      (hm' (w3.addCmp c) fun p hp => hw p (List.mem_append.2 (Or.inr hp)))
    simpa using this

theorem ReadOnly.ite {c : Prop} {inst : Decidable c} {m n : M (World N) α} (hm : ReadOnly m) (hn : ReadOnly n) :
    ReadOnly (@_root_.ite _ c inst m n) := by split <;> assumption

theorem ReadOnly.rd (p : Ptr) : ReadOnly (rd p : M (World N) N) := by
  intro w a w' h
  unfold Runs Nestl.rd at h
  split at h
  · cases h
  · rename_i hp
    split at h
    · rename_i c hc
      cases h
      refine ⟨[p], 0, rfl, by simp [hc], fun w2 hw => ?_⟩
      have := hw p (by simp)
      rw [hc] at this
      unfold Runs Nestl.rd
      rw [if_neg hp, this]
      rfl
    · cases h

theorem ReadOnly.assertM (b : Bool) : ReadOnly (assertM b : M (World N) Unit) := by
  cases b
  · exact ReadOnly.fault _
  · exact ReadOnly.pure _

theorem ReadOnly.cmp {K : Type} (lt : K → K → Bool) (a b : K) : ReadOnly (cmp lt a b : M (World N) Bool) := by
  intro w r w' h; cases h; exact ⟨[], 1, rfl, by simp, fun _ _ => rfl⟩

/-- A run of the limit of a chain is a run of a member of the chain. -/
theorem runs_csup_ro {c : M (World N) α → Prop} (hc : chain c) {w : World N} {r : Except Fault (α × World N)}
    (h : CCPO.csup hc w = some r) : ∃ m, c m ∧ m w = some r := by
  have h1 : ∀ w : World N, Lean.Order.admissible (fun v : Option (Except Fault (α × World N)) =>
      ∀ r, v = some r → ∃ m, c m ∧ m w = some r) := fun w => admissible_flatOrder _ (by intro r h; cases h)
  exact admissible_pi_apply _ h1 c hc (fun m hm w r h => ⟨m, hm, h⟩) w r h

theorem runs_mono_ro {m n : M (World N) α} (h : m ⊑ n) {w : World N} {r : Except Fault (α × World N)} (hr : m w = some r) :
    n w = some r := by
  have h1 := h w
  rw [hr] at h1
  generalize n w = v at h1
  cases h1
  rfl

theorem ReadOnly.admissible : admissible (fun m : M (World N) α => ReadOnly m) := by
  intro c hc h w a w' hr
  obtain ⟨m, hm, hr'⟩ := runs_csup_ro hc hr
  obtain ⟨S, n, h1, h2, h3⟩ := h m hm w a w' hr'
  exact ⟨S, n, h1, h2, fun w2 hw => runs_mono_ro (le_csup hc hm) (h3 w2 hw)⟩

theorem ReadOnly.admissible1 {A : Type} : Lean.Order.admissible (fun m : A → M (World N) α => ∀ a, ReadOnly (m a)) :=
  admissible_pi_apply _ fun _ => ReadOnly.admissible

theorem ReadOnly.admissible2 {A B : Type} :
    Lean.Order.admissible (fun m : A → B → M (World N) α => ∀ a b, ReadOnly (m a b)) :=
  admissible_pi_apply _ fun _ => ReadOnly.admissible1

theorem ReadOnly.admissible3 {A B C : Type} :
    Lean.Order.admissible (fun m : A → B → C → M (World N) α => ∀ a b c, ReadOnly (m a b c)) :=
  admissible_pi_apply _ fun _ => ReadOnly.admissible2

theorem ReadOnly.admissible4 {A B C D : Type} :
    Lean.Order.admissible (fun m : A → B → C → D → M (World N) α => ∀ a b c d, ReadOnly (m a b c d)) :=
  admissible_pi_apply _ fun _ => ReadOnly.admissible3

/-- The cells that are read exist: a program that runs when only the cells `S` exist has the same run wherever these cells
have the same content. -/
theorem ReadOnly.local {m : M (World N) α} (h : ReadOnly m) {w : World N} {S : List Ptr} {a : α} {w' : World N}
    (hr : Runs m { w with heap := fun p => if p ∈ S then w.heap p else none } a w') :
    ∃ c, ∀ w2 : World N, SameAt S w.heap w2.heap → Runs m w2 a (w2.addCmp c) := by
  obtain ⟨S', c, -, h1, h2⟩ := h _ _ _ hr
  refine ⟨c, fun w2 hw => h2 w2 fun p hp => ?_⟩
  have := h1 p hp
  dsimp only at this ⊢
  split at this
  · rename_i hps; rw [if_pos hps]; exact hw p hps
  · exact absurd rfl this
end

/-- Closes `ReadOnly` goals for operations that are known to be read-only. -/
syntax "reader_leaf" : tactic
macro_rules | `(tactic| reader_leaf) => `(tactic| with_reducible assumption)
macro_rules | `(tactic| reader_leaf) => `(tactic| with_reducible exact Nestl.ReadOnly.pure _)
macro_rules | `(tactic| reader_leaf) => `(tactic| with_reducible exact Nestl.ReadOnly.fault _)
macro_rules | `(tactic| reader_leaf) => `(tactic| with_reducible exact Nestl.ReadOnly.rd _)
macro_rules | `(tactic| reader_leaf) => `(tactic| with_reducible exact Nestl.ReadOnly.assertM _)
macro_rules | `(tactic| reader_leaf) => `(tactic| with_reducible exact Nestl.ReadOnly.cmp _ _ _)

/-- Follows the structure of a program. -/
macro "reading" : tactic => `(tactic|
  repeat' first
    | reader_leaf
    | with_reducible apply Nestl.ReadOnly.bind
    | with_reducible apply Nestl.ReadOnly.ite
    | with_reducible (split <;> skip)
    | intro _)

end Nestl
