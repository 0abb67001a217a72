import Verif.ReadOnly
set_option autoImplicit false
/-
Programs that leave an assertion about the state alone, and programs that do the same where it holds.
-/
namespace Nestl
open Lean.Order

/-- Every run of `m` from a state with `I` ends in a state with `I`. -/
def Keeps {σ α : Type} (I : σ → Prop) (m : M σ α) : Prop := ∀ w a w', I w → Runs m w a w' → I w'

/-- `m` and `m'` do the same in every state with `I`. -/
def Agree {σ α : Type} (I : σ → Prop) (m m' : M σ α) : Prop := ∀ w, I w → m w = m' w

section
variable {N α β : Type} {I : World N → Prop}

theorem Keeps.pure (a : α) : Keeps I (pure a : M (World N) α) := by
  intro w a w' hi h; cases h; exact hi

theorem Keeps.fault (f : Fault) : Keeps I (fault f : M (World N) α) := by
  intro w a w' _ h; cases h

theorem Keeps.bind {m : M (World N) α} {k : α → M (World N) β} (h : Keeps I m) (hk : ∀ a, Keeps I (k a)) : Keeps I (m >>= k) := by
  intro w b w2 hi hr
  obtain ⟨a, w1, h1, h3⟩ := runs_steps hr
  exact hk a _ _ _ (h _ _ _ hi h1) h3

theorem Keeps.ite {c : Prop} {inst : Decidable c} {m n : M (World N) α} (hm : Keeps I m) (hn : Keeps I n) :
    Keeps I (@_root_.ite _ c inst m n) := by split <;> assumption

theorem Keeps.assertM (b : Bool) : Keeps I (assertM b : M (World N) Unit) := by
  cases b
  · exact .fault _
  · exact .pure _

/-- A first step with a known outcome. -/
theorem run_bind {m : M (World N) α} {k : α → M (World N) β} {w w' : World N} {a : α} (h : Runs m w a w') :
    (m >>= k) w = k a w' := by
  show (StateT.bind m k) w = _
  unfold StateT.bind
  have h' : m w = some (.ok (a, w')) := h
  rw [h']; rfl

theorem Agree.rfl' {m : M (World N) α} : Agree I m m := fun _ _ => rfl

theorem Agree.steps {m m' : M (World N) α} {k k' : α → M (World N) β} {J : α → World N → Prop} (h : Agree I m m')
    (hm : ∀ w a w', I w → Runs m' w a w' → J a w') (hk : ∀ a, Agree (J a) (k a) (k' a)) :
    Agree I (m >>= k) (m' >>= k') := by
  intro w hi
  show (StateT.bind m k) w = (StateT.bind m' k') w
  unfold StateT.bind
  rw [h w hi]
  cases hr : m' w with
  | none => rfl
  | some r =>
    cases r with
    | error f => rfl
    | ok x =>
      obtain ⟨a, w1⟩ := x
      have h1 : Runs m' w a w1 := hr
      exact hk a w1 (hm w a w1 hi h1)

theorem Agree.bind {m m' : M (World N) α} {k k' : α → M (World N) β} (h : Agree I m m') (hm : Keeps I m')
    (hk : ∀ a, Agree I (k a) (k' a)) : Agree I (m >>= k) (m' >>= k') :=
  .steps h (J := fun _ => I) hm hk

/-- The rest of a program after a step that does the same. -/
theorem Agree.after {m m' : M (World N) α} {k : α → M (World N) β} (h : Agree I m m') : Agree I (m >>= k) (m' >>= k) :=
  .steps h (J := fun _ _ => True) (fun _ _ _ _ _ => trivial) fun _ _ _ => rfl

theorem Agree.weaken {I' : World N → Prop} {m m' : M (World N) α} (h : Agree I m m') (hi : ∀ w, I' w → I w) : Agree I' m m' :=
  fun w h' => h w (hi w h')

theorem Agree.ite {c : Prop} {inst : Decidable c} {m n m' n' : M (World N) α} (hm : Agree I m m') (hn : Agree I n n') :
    Agree I (@_root_.ite _ c inst m n) (@_root_.ite _ c inst m' n') := by split <;> assumption

/-- Wherever `I` holds and `m` ends (normally or with a fault), `m'` ends in the same way. -/
def Below (I : World N → Prop) (m m' : M (World N) α) : Prop := ∀ w, I w → ∀ r, m w = some r → m' w = some r

theorem Agree.below {m m' : M (World N) α} (h : Agree I m m') : Below I m m' := fun w hi r hr => by rw [← h w hi]; exact hr

theorem Agree.symm {m m' : M (World N) α} (h : Agree I m m') : Agree I m' m := fun w hi => (h w hi).symm

theorem Below.agree {m m' : M (World N) α} (h : Below I m m') (h' : Below I m' m) : Agree I m m' := by
  intro w hi
  cases h1 : m w with
  | none =>
    cases h2 : m' w with
    | none => rfl
    | some r => have := h' w hi r h2; rw [h1] at this; cases this
  | some r => exact (h w hi r h1).symm

theorem Below.rfl' {m : M (World N) α} : Below I m m := fun _ _ _ h => h

theorem Below.bind {m m' : M (World N) α} {k k' : α → M (World N) β} (h : Below I m m') (hm : Keeps I m)
    (hk : ∀ a, Below I (k a) (k' a)) : Below I (m >>= k) (m' >>= k') := by
  intro w hi r hr
  change (StateT.bind m k) w = some r at hr
  show (StateT.bind m' k') w = some r
  unfold StateT.bind at hr ⊢
  cases h1 : m w with
  | none => rw [h1] at hr; cases hr
  | some r1 =>
    rw [h w hi r1 h1]
    rw [h1] at hr
    cases r1 with
    | error f => exact hr
    | ok x => exact hk x.1 x.2 (hm w x.1 x.2 hi h1) r hr

theorem Below.ite {c : Prop} {inst : Decidable c} {m n m' n' : M (World N) α} (hm : Below I m m') (hn : Below I n n') :
    Below I (@_root_.ite _ c inst m n) (@_root_.ite _ c inst m' n') := by split <;> assumption

theorem Below.admissible {m' : M (World N) α} : Lean.Order.admissible (fun m : M (World N) α => Below I m m') := by
  have h1 : ∀ w : World N, Lean.Order.admissible (fun v : Option (Except Fault (α × World N)) =>
      I w → ∀ r, v = some r → m' w = some r) := fun w => admissible_flatOrder _ (by intro _ r h; cases h)
  exact admissible_pi_apply _ h1

theorem Below.admissible2 {A B : Type} {m' : A → B → M (World N) α} :
    Lean.Order.admissible (fun m : A → B → M (World N) α => ∀ a b, Below I (m a b) (m' a b)) :=
  admissible_pi_apply _ fun a => admissible_pi_apply (fun b (m : M (World N) α) => Below I m (m' a b)) fun _ => Below.admissible

theorem Below.admissible3 {A B C : Type} {m' : A → B → C → M (World N) α} :
    Lean.Order.admissible (fun m : A → B → C → M (World N) α => ∀ a b c, Below I (m a b c) (m' a b c)) :=
  admissible_pi_apply _ fun a => admissible_pi_apply (fun b (m : C → M (World N) α) => ∀ c, Below I (m c) (m' a b c)) fun b =>
    admissible_pi_apply (fun c (m : M (World N) α) => Below I m (m' a b c)) fun _ => Below.admissible

theorem Agree.runs {m m' : M (World N) α} (h : Agree I m m') {w : World N} (hi : I w) {a : α} {w' : World N} : Runs m w a w' ↔ Runs m' w a w' := by
  unfold Runs; rw [h w hi]

end

/-- The cell `p` exists and satisfies `P`. -/
def CellIs {N : Type} (p : Ptr) (P : N → Prop) (w : World N) : Prop := p ≠ .null ∧ ∃ c, w.heap p = some c ∧ P c

section
variable {N : Type} {p : Ptr} {P : N → Prop}

theorem Keeps.rd {I : World N → Prop} (q : Ptr) : Keeps I (rd q : M (World N) N) := by
  intro w a w' hi h
  unfold Runs Nestl.rd at h
  split at h
  · cases h
  · split at h <;> cases h
    exact hi

theorem Keeps.hasErr {I : World N → Prop} : Keeps I (hasErr : M (World N) Bool) := by
  intro w a w' hi h; cases h; exact hi

theorem Keeps.modCell (q : Ptr) (f : N → N) (hf : ∀ c, P c → P (f c)) :
    Keeps (CellIs p P) (modCell q f : M (World N) Unit) := by
  intro w a w' hi h
  obtain ⟨hp, c, hc, hP⟩ := hi
  unfold Runs Nestl.modCell at h
  split at h
  · cases h
  · split at h
    · rename_i c' hc'
      cases h
      refine ⟨hp, ?_⟩
      by_cases hq : p = q
      · subst hq
        rw [hc] at hc'; cases hc'
        exact ⟨f c, by simp, hf c hP⟩
      · exact ⟨c, by simp [upd_other _ _ hq, hc], hP⟩
    · cases h

theorem Keeps.newObj (mk : Ptr → N) (hp : ∀ i, p ≠ .stk i) : Keeps (CellIs p P) (newObj mk : M (World N) Ptr) := by
  intro w a w' hi h
  obtain ⟨h0, c, hc, hP⟩ := hi
  cases h
  exact ⟨h0, c, by simp [upd_other _ _ (hp _), hc], hP⟩

theorem Keeps.tryCtor : Keeps (CellIs p P) (tryCtor : M (World N) Bool) := by
  intro w a w' hi h
  obtain ⟨h0, c, hc, hP⟩ := hi
  unfold Runs Nestl.tryCtor at h
  split at h <;> cases h <;> exact ⟨h0, c, hc, hP⟩

theorem Keeps.cmp {K : Type} (lt : K → K → Bool) (a b : K) : Keeps (CellIs p P) (cmp lt a b : M (World N) Bool) := by
  intro w r w' hi h
  obtain ⟨h0, c, hc, hP⟩ := hi
  cases h; exact ⟨h0, c, hc, hP⟩

theorem Keeps.freeCell {q : Ptr} (ok : N → Except Fault Unit) (hq : q ≠ p) :
    Keeps (CellIs p P) (freeCell q ok : M (World N) Unit) := by
  intro w r w' hi h
  obtain ⟨h0, c, hc, hP⟩ := hi
  unfold Runs Nestl.freeCell at h
  split at h
  · cases h; exact ⟨h0, c, hc, hP⟩
  · cases h
  · split at h
    · cases h
    · split at h <;> cases h
      exact ⟨h0, c, by simp [upd_other _ _ (Ne.symm hq), hc], hP⟩

/-- Programs that write nothing leave the cell alone. -/
theorem ReadOnly.keeps {α : Type} {m : M (World N) α} (h : ReadOnly m) : Keeps (CellIs p P) m := by
  intro w a w' hi hr
  obtain ⟨S, c, rfl, _⟩ := h _ _ _ hr
  obtain ⟨h0, c, hc, hP⟩ := hi
  exact ⟨h0, c, hc, hP⟩

/-- A new node is not the one referred to. -/
theorem CellIs.alloc {w w' : World N} {q : Ptr} (init : N → N) (hi : CellIs p P w) (h : Runs (allocCell init) w q w') :
    CellIs p P w' ∧ q ≠ p := by
  obtain ⟨h0, c, hc, hP⟩ := hi
  unfold Runs Nestl.allocCell at h
  dsimp only at h
  split at h
  · cases h; exact ⟨⟨h0, c, hc, hP⟩, Ne.symm h0⟩
  · split at h
    · cases h; exact ⟨⟨h0, c, hc, hP⟩, Ne.symm h0⟩
    · rename_i a _ _ hn
      cases h
      have hne : p ≠ .dyn a := by intro e; rw [e, hn] at hc; cases hc
      exact ⟨⟨h0, c, by simp [upd_other _ _ hne, hc], hP⟩, Ne.symm hne⟩

end
end Nestl
