import Verif.ReadOnly
set_option autoImplicit false
/-
Programs that touch nothing but the memory they are given: whatever else is in memory does not change what they do, and they do
not change it.
-/
namespace Nestl
open Lean.Order

section spec
variable {N : Type}

/-- `w` with further memory cells `F` beside its own, and with `n` more comparisons in the past. -/
def World.beside (w : World N) (F : Ptr → Option N) (n : Nat) : World N :=
  { w with heap := fun p => (w.heap p).or (F p), nCmp := w.nCmp + n }

/-- The cells `F` are different from those of `w`. -/
def Apart (F : Ptr → Option N) (w : World N) : Prop := ∀ p, w.heap p ≠ none → F p = none

/-- No automatic object created after `w` and no address that the allocator offers between `w` and `w'` is among `F`. -/
structure Room (F : Ptr → Option N) (w w' : World N) : Prop where
  stk : ∀ i, w.sp ≤ i → F (.stk i) = none
  dyn : ∀ j a, w.nAlloc ≤ j → j < w'.nAlloc → w.env.addr j = some a → F (.dyn a) = none

/-- `p` is an automatic object created between `w` and `w'` or memory that the allocator offered in between. -/
def NewCell (w w' : World N) (p : Ptr) : Prop :=
  (∃ i, p = .stk i ∧ w.sp ≤ i ∧ i < w'.sp) ∨
    ∃ j a, p = .dyn a ∧ w.nAlloc ≤ j ∧ j < w'.nAlloc ∧ w.env.addr j = some a

/-- What is never undone, and where cells come from. -/
structure Later (w w' : World N) : Prop where
  env : w'.env = w.env
  allocs : w.nAlloc ≤ w'.nAlloc
  sp : w.sp ≤ w'.sp
  cells : ∀ p, w'.heap p ≠ none → w.heap p ≠ none ∨ NewCell w w' p

/-- Every run of `m` is also possible beside any other memory cells: it has the same result, makes the same changes and leaves
the other cells as they are. -/
def Local {α : Type} (m : M (World N) α) : Prop :=
  ∀ w a w', Runs m w a w' → Later w w' ∧
    ∀ F n, Apart F w → Room F w w' → Apart F w' ∧ Runs m (w.beside F n) a (w'.beside F n)

end spec

section
variable {N α β : Type} {F : Ptr → Option N} {w w' w1 w2 : World N}

theorem Later.refl : Later w w := ⟨rfl, Nat.le_refl _, Nat.le_refl _, fun _ h => .inl h⟩
theorem Later.trans (h : Later w w1) (h' : Later w1 w2) : Later w w2 := by
  refine ⟨h'.env.trans h.env, Nat.le_trans h.allocs h'.allocs, Nat.le_trans h.sp h'.sp, fun p hp => ?_⟩
  have h1 := h.allocs; have h2 := h'.allocs; have h3 := h.sp; have h4 := h'.sp
  rcases h'.cells p hp with hp | ⟨i, rfl, hi⟩ | ⟨j, a, rfl, hj⟩
  · rcases h.cells p hp with hp | ⟨i, rfl, hi⟩ | ⟨j, a, rfl, hj⟩
    · exact .inl hp
    · exact .inr (.inl ⟨i, rfl, by omega, by omega⟩)
    · exact .inr (.inr ⟨j, a, rfl, by omega, by omega, hj.2.2⟩)
  · exact .inr (.inl ⟨i, rfl, by omega, by omega⟩)
  · exact .inr (.inr ⟨j, a, rfl, by omega, by omega, by rw [← h.env]; exact hj.2.2⟩)

theorem upd_cells {p : Ptr} {c : Option N} (hp : w.heap p ≠ none) :
    ∀ q, upd w.heap p c q ≠ none → w.heap q ≠ none ∨ NewCell w w' q := by
  intro q hq
  left
  by_cases e : q = p
  · rw [e]; exact hp
  · simpa [upd_other _ _ e] using hq

theorem Room.left (h : Room F w w2) (h' : Later w1 w2) : Room F w w1 :=
  ⟨h.stk, fun j a h1 h2 h3 => h.dyn j a h1 (Nat.lt_of_lt_of_le h2 h'.allocs) h3⟩
theorem Room.right (h : Room F w w2) (h' : Later w w1) : Room F w1 w2 :=
  ⟨fun i hi => h.stk i (Nat.le_trans h'.sp hi), fun j a h1 h2 h3 =>
    h.dyn j a (Nat.le_trans h'.allocs h1) h2 (by rw [← h'.env]; exact h3)⟩

theorem Local.pure (a : α) : Local (pure a : M (World N) α) := by
  intro w a w' h; cases h; exact ⟨.refl, fun F n hF _ => ⟨hF, rfl⟩⟩

theorem Local.fault (f : Fault) : Local (fault f : M (World N) α) := by
  intro w a w' h; cases h

theorem Local.bind {m : M (World N) α} {k : α → M (World N) β} (h : Local m) (hk : ∀ a, Local (k a)) : Local (m >>= k) := by
  intro w b w2 hr
  obtain ⟨a, w1, h1, h3⟩ := runs_steps hr
  obtain ⟨l1, f1⟩ := h _ _ _ h1
  obtain ⟨l2, f2⟩ := hk a _ _ _ h3
  refine ⟨l1.trans l2, fun F n hF hR => ?_⟩
  obtain ⟨a1, r1⟩ := f1 F n hF (hR.left l2)
  obtain ⟨a2, r2⟩ := f2 F n a1 (hR.right l1)
  exact ⟨a2, runs_bind_split r1 r2⟩

theorem Local.ite {c : Prop} {inst : Decidable c} {m n : M (World N) α} (hm : Local m) (hn : Local n) :
    Local (@_root_.ite _ c inst m n) := by split <;> assumption

theorem Local.assertM (b : Bool) : Local (assertM b : M (World N) Unit) := by
  cases b
  · exact Local.fault _
  · exact Local.pure _

theorem Local.rd (p : Ptr) : Local (rd p : M (World N) N) := by
  intro w a w' h
  unfold Runs Nestl.rd at h
  split at h
  · cases h
  · rename_i hp
    split at h
    · rename_i c hc
      cases h
      refine ⟨.refl, fun F n hF _ => ⟨hF, ?_⟩⟩
      unfold Runs Nestl.rd
      rw [if_neg hp]
      simp only [World.beside, hc, Option.some_or]
    · cases h

theorem Local.hasErr : Local (hasErr : M (World N) Bool) := by
  intro w a w' h; cases h; exact ⟨.refl, fun F n hF _ => ⟨hF, rfl⟩⟩

theorem Local.cmp {K : Type} (lt : K → K → Bool) (a b : K) : Local (cmp lt a b : M (World N) Bool) := by
  intro w r w' h; cases h
  refine ⟨⟨rfl, Nat.le_refl _, Nat.le_refl _, fun _ h => .inl h⟩, fun F n hF _ => ⟨hF, ?_⟩⟩
  unfold Runs Nestl.cmp World.beside
  simp only [Nat.add_right_comm]

theorem Local.tryCtor : Local (tryCtor : M (World N) Bool) := by
  intro w a w' h
  unfold Runs Nestl.tryCtor at h
  split at h
  · rename_i hc
    cases h
    refine ⟨⟨rfl, Nat.le_refl _, Nat.le_refl _, fun _ h => .inl h⟩, fun F n hF _ => ⟨hF, ?_⟩⟩
    unfold Runs Nestl.tryCtor
    rw [if_pos (by exact hc)]
    rfl
  · rename_i hc
    cases h
    refine ⟨⟨rfl, Nat.le_refl _, Nat.le_refl _, fun _ h => .inl h⟩, fun F n hF _ => ⟨hF, ?_⟩⟩
    unfold Runs Nestl.tryCtor
    rw [if_neg (by exact hc)]
    rfl

theorem Apart.upd {p : Ptr} {c : Option N} (h : Apart F w) (hp : F p = none) : Apart F (w.setHeap (upd w.heap p c)) := by
  intro q hq
  by_cases e : q = p
  · rw [e]; exact hp
  · exact h q (by simpa [upd_other _ _ e] using hq)

theorem beside_upd {p : Ptr} {c : Option N} {n : Nat} (hp : F p = none) :
    (w.setHeap (upd w.heap p c)).beside F n = (w.beside F n).setHeap (upd (w.beside F n).heap p c) := by
  unfold World.beside World.setHeap
  congr 1
  funext q
  by_cases e : q = p
  · subst e; simp [Nestl.upd, hp]
  · simp [Nestl.upd, e]

theorem Local.modCell (p : Ptr) (f : N → N) : Local (modCell p f : M (World N) Unit) := by
  intro w a w' h
  unfold Runs Nestl.modCell at h
  split at h
  · cases h
  · rename_i hp
    split at h
    · rename_i c hc
      cases h
      refine ⟨⟨rfl, Nat.le_refl _, Nat.le_refl _, upd_cells (by rw [hc]; simp)⟩, fun F n hF _ => ?_⟩
      have hFp := hF p (by rw [hc]; simp)
      refine ⟨hF.upd hFp, ?_⟩
      unfold Runs Nestl.modCell
      rw [if_neg hp, beside_upd hFp]
      have : (w.beside F n).heap p = some c := by simp [World.beside, hc]
      rw [this]
    · cases h

theorem Local.dropObj (p : Ptr) : Local (dropObj p : M (World N) Unit) := by
  intro w a w' h
  unfold Runs Nestl.dropObj at h
  split at h
  · rename_i c hc
    cases h
    refine ⟨⟨rfl, Nat.le_refl _, Nat.le_refl _, upd_cells (by rw [hc]; simp)⟩, fun F n hF _ => ?_⟩
    have hFp := hF p (by rw [hc]; simp)
    refine ⟨hF.upd hFp, ?_⟩
    unfold Runs Nestl.dropObj
    have : (w.beside F n).heap p = some c := by simp [World.beside, hc]
    rw [beside_upd hFp, this]
  · cases h

theorem Local.freeCell (p : Ptr) (ok : N → Except Fault Unit) : Local (freeCell p ok) := by
  intro w a w' h
  unfold Runs Nestl.freeCell at h
  split at h
  · cases h; exact ⟨.refl, fun F n hF _ => ⟨hF, rfl⟩⟩
  · cases h
  · split at h
    · cases h
    · rename_i b _ c hc
      split at h
      · cases h
      · rename_i hok
        cases h
        refine ⟨⟨rfl, Nat.le_refl _, Nat.le_refl _, upd_cells (by rw [hc]; simp)⟩, fun F n hF _ => ?_⟩
        have hFp := hF (.dyn b) (by rw [hc]; simp)
        refine ⟨hF.upd hFp, ?_⟩
        unfold Runs Nestl.freeCell
        have : (w.beside F n).heap (.dyn b) = some c := by simp [World.beside, hc]
        simp only [beside_upd hFp, this, hok]

theorem Local.newObj (mk : Ptr → N) : Local (newObj mk : M (World N) Ptr) := by
  intro w a w' h
  cases h
  refine ⟨⟨rfl, Nat.le_refl _, Nat.le_succ _, fun q hq => ?_⟩, fun F n hF hR => ?_⟩
  · by_cases e : q = .stk w.sp
    · exact .inr (.inl ⟨w.sp, e, Nat.le_refl _, Nat.lt_succ_self _⟩)
    · exact .inl (by simpa [upd_other _ _ e] using hq)
  have hFp := hR.stk w.sp (Nat.le_refl _)
  refine ⟨hF.upd hFp, ?_⟩
  have := beside_upd (w := w) (c := some (mk (.stk w.sp))) (n := n) hFp
  unfold World.beside World.setHeap at this
  simp only [World.mk.injEq] at this
  unfold Runs Nestl.newObj World.beside
  simp only [this]

theorem Local.allocCell (init : N → N) : Local (allocCell init : M (World N) Ptr) := by
  intro w a w' h
  unfold Runs Nestl.allocCell at h
  dsimp only at h
  split at h
  · rename_i ha
    cases h
    refine ⟨⟨rfl, Nat.le_succ _, Nat.le_refl _, fun _ h => .inl h⟩, fun F n hF _ => ⟨hF, ?_⟩⟩
    unfold Runs Nestl.allocCell
    have : (w.beside F n).env.addr (w.beside F n).nAlloc = none := ha
    dsimp only
    rw [this]
    rfl
  · rename_i b hb
    split at h
    · rename_i c hc
      cases h
      refine ⟨⟨rfl, Nat.le_succ _, Nat.le_refl _, fun _ h => .inl h⟩, fun F n hF _ => ⟨hF, ?_⟩⟩
      unfold Runs Nestl.allocCell
      have h1 : (w.beside F n).env.addr (w.beside F n).nAlloc = some b := hb
      have h2 : (w.beside F n).heap (.dyn b) = some c := by simp [World.beside, hc]
      dsimp only
      simp only [h1, h2]
      rfl
    · rename_i hc
      cases h
      refine ⟨⟨rfl, Nat.le_succ _, Nat.le_refl _, fun q hq => ?_⟩, fun F n hF hR => ?_⟩
      · by_cases e : q = .dyn b
        · exact .inr (.inr ⟨w.nAlloc, b, e, Nat.le_refl _, Nat.lt_succ_self _, hb⟩)
        · exact .inl (by simpa [upd_other _ _ e] using hq)
      have hFp := hR.dyn w.nAlloc b (Nat.le_refl _) (Nat.lt_succ_self _) hb
      refine ⟨hF.upd hFp, ?_⟩
      unfold Runs Nestl.allocCell
      have h1 : (w.beside F n).env.addr (w.beside F n).nAlloc = some b := hb
      have h2 : (w.beside F n).heap (.dyn b) = none := by simp [World.beside, hc, hFp]
      dsimp only
      simp only [h1, h2]
      have := beside_upd (w := w) (c := some (init (w.env.junk w.nAlloc))) (n := n) hFp
      unfold World.beside World.setHeap at this ⊢
      simp only [World.mk.injEq] at this
      simp only [this]

theorem Local.admissible : admissible (fun m : M (World N) α => Local m) := by
  intro c hc h w a w' hr
  obtain ⟨m, hm, hr'⟩ := runs_csup_ro hc hr
  obtain ⟨h1, h2⟩ := h m hm w a w' hr'
  refine ⟨h1, fun F n hF hR => ?_⟩
  obtain ⟨h3, h4⟩ := h2 F n hF hR
  exact ⟨h3, runs_mono_ro (le_csup hc hm) h4⟩

theorem Local.admissible1 {A : Type} : Lean.Order.admissible (fun m : A → M (World N) α => ∀ a, Local (m a)) :=
  admissible_pi_apply _ fun _ => Local.admissible

theorem Local.admissible2 {A B : Type} :
    Lean.Order.admissible (fun m : A → B → M (World N) α => ∀ a b, Local (m a b)) :=
  admissible_pi_apply _ fun _ => Local.admissible1

theorem Local.admissible3 {A B C : Type} :
    Lean.Order.admissible (fun m : A → B → C → M (World N) α => ∀ a b c, Local (m a b c)) :=
  admissible_pi_apply _ fun _ => Local.admissible2

theorem Local.admissible4 {A B C D : Type} :
    Lean.Order.admissible (fun m : A → B → C → D → M (World N) α => ∀ a b c d, Local (m a b c d)) :=
  admissible_pi_apply _ fun _ => Local.admissible3
end

/-- Closes `Local` goals for operations that are known to be local. -/
syntax "local_leaf" : tactic
macro_rules | `(tactic| local_leaf) => `(tactic| with_reducible assumption)
macro_rules | `(tactic| local_leaf) => `(tactic| with_reducible exact Nestl.Local.pure _)
macro_rules | `(tactic| local_leaf) => `(tactic| with_reducible exact Nestl.Local.fault _)
macro_rules | `(tactic| local_leaf) => `(tactic| with_reducible exact Nestl.Local.rd _)
macro_rules | `(tactic| local_leaf) => `(tactic| with_reducible exact Nestl.Local.modCell _ _)
macro_rules | `(tactic| local_leaf) => `(tactic| with_reducible exact Nestl.Local.hasErr)
macro_rules | `(tactic| local_leaf) => `(tactic| with_reducible exact Nestl.Local.assertM _)
macro_rules | `(tactic| local_leaf) => `(tactic| with_reducible exact Nestl.Local.cmp _ _ _)
macro_rules | `(tactic| local_leaf) => `(tactic| with_reducible exact Nestl.Local.tryCtor)
macro_rules | `(tactic| local_leaf) => `(tactic| with_reducible exact Nestl.Local.allocCell _)
macro_rules | `(tactic| local_leaf) => `(tactic| with_reducible exact Nestl.Local.newObj _)
macro_rules | `(tactic| local_leaf) => `(tactic| with_reducible exact Nestl.Local.dropObj _)
macro_rules | `(tactic| local_leaf) => `(tactic| with_reducible exact Nestl.Local.freeCell _ _)

/-- Follows the structure of a program. -/
macro "locally" : tactic => `(tactic|
  repeat' first
    | local_leaf
    | with_reducible apply Nestl.Local.bind
    | with_reducible apply Nestl.Local.ite
    | with_reducible (split <;> skip)
    | intro _)

/-! ### Calls on some objects only -/

section spec
open Classical
variable {N α : Type}

/-- What a call on the cells `S` can notice of the state `w`: these cells, the memory that the allocator will offer and the
results of the constructors to come. -/
noncomputable def World.only (w : World N) (S : Ptr → Prop) : World N :=
  { w with heap := fun p => if S p then w.heap p else none, nCmp := 0, err := none }

/-- The state `w2` is like `w` for a call on the cells `S`: these cells are the same, the same allocations and constructors will
succeed.  Everything else, in particular all other objects, can be different. -/
structure Sees (S : Ptr → Prop) (w w2 : World N) : Prop where
  env : w2.env = w.env
  allocs : w2.nAlloc = w.nAlloc
  ctors : w2.nCtor = w.nCtor
  sp : w2.sp = w.sp
  cells : ∀ p, S p → w2.heap p = w.heap p
  stk : ∀ i, w2.sp ≤ i → w2.heap (.stk i) = none

/-- The result of a call, the error it reports, the number of comparisons it needs, the numbers of allocations, constructors and
automatic objects after it, and the cells it leaves. -/
structure Deed (N α : Type) where
  res : α
  err : Option Err
  cmps : Nat
  nAlloc : Nat
  nCtor : Nat
  sp : Nat
  cells : Ptr → Option N

/-- The state after a call on the cells `S` in `w`: all other cells are as before. -/
noncomputable def Deed.after (o : Deed N α) (S : Ptr → Prop) (w : World N) : World N :=
  { heap := fun p => if S p ∨ w.heap p = none then o.cells p else w.heap p
    env := w.env
    nAlloc := o.nAlloc
    nCtor := o.nCtor
    nCmp := w.nCmp + o.cmps
    sp := o.sp
    err := o.err }

/-- The memory that the allocator offers until allocation `n` is not used by others. -/
def Spare (S : Ptr → Prop) (w : World N) (n : Nat) : Prop :=
  ∀ j a, w.nAlloc ≤ j → j < n → w.env.addr j = some a → w.heap (.dyn a) = none ∨ S (.dyn a)

/-- `m` is a matter of the cells `S` of `w` alone: there is one outcome that `m` has in every state in which these cells are as in
`w` (and in which the allocator offers no memory that is used by others).  In all of them the call terminates without any fault,
gives the same result, reports the same, needs the same comparisons, allocations and constructors, and leaves the same content in
the cells `S` and in the memory it obtains.  All other cells keep their content. -/
def OnlyAbout (S : Ptr → Prop) (w : World N) (m : M (World N) α) : Prop :=
  ∃ o : Deed N α, (∀ p, o.cells p ≠ none → S p ∧ w.heap p ≠ none ∨ NewCell w (o.after S w) p) ∧ w.nAlloc ≤ o.nAlloc ∧ w.sp ≤ o.sp ∧
    ∀ w2, Sees S w w2 → Spare S w2 o.nAlloc → Runs m { w2 with err := none } o.res (o.after S w2)

end spec

section
variable {N α β : Type} {S T : Ptr → Prop}

theorem Local.onlyAbout {m : M (World N) α} (h : Local m) {w w' : World N} {r : α}
    (hr : Runs m (w.only S) r w') : OnlyAbout S w m := by
  obtain ⟨hl, hf⟩ := h _ _ _ hr
  refine ⟨⟨r, w'.err, w'.nCmp, w'.nAlloc, w'.nCtor, w'.sp, w'.heap⟩, fun p hp => ?_, hl.allocs, hl.sp, fun w2 hs hq => ?_⟩
  · refine (hl.cells p hp).imp (fun h1 => ?_) fun h1 => h1
    by_cases hS : S p
    · exact ⟨hS, by simpa [World.only, hS] using h1⟩
    · exact absurd (if_neg hS) h1
  let F : Ptr → Option N := fun p => open Classical in if S p then none else w2.heap p
  have hA : Apart F (w.only S) := by
    intro p hp
    by_cases hS : S p
    · exact if_pos hS
    · exact absurd (if_neg hS) hp
  have hR : Room F (w.only S) w' := by
    refine ⟨fun i hi => ?_, fun j a h1 h2 h3 => ?_⟩
    · simp only [F]
      split
      · rfl
      · exact hs.stk i (by rw [hs.sp]; exact hi)
    · simp only [F]
      split
      · rfl
      · rename_i hn
        exact (hq j a (by rw [hs.allocs]; exact h1) h2 (by rw [hs.env]; exact h3)).resolve_right hn
  obtain ⟨hA', hrun⟩ := hf F w2.nCmp hA hR
  have e : (w.only S).beside F w2.nCmp = { w2 with err := none } := by
    unfold World.only World.beside
    rw [← hs.env, ← hs.allocs, ← hs.ctors, ← hs.sp]
    simp only [Nat.zero_add]
    congr 1
    funext p
    by_cases hS : S p
    · simp [F, hS, hs.cells p hS]
    · simp [F, hS]
  have e' : w'.beside F w2.nCmp = Deed.after ⟨r, w'.err, w'.nCmp, w'.nAlloc, w'.nCtor, w'.sp, w'.heap⟩ S w2 := by
    unfold World.beside Deed.after
    rw [hl.env, Nat.add_comm, hs.env]
    congr 1
    funext p
    show (w'.heap p).or (F p) = _
    by_cases hS : S p
    · simp [F, hS]
    · cases h2 : w2.heap p with
      | none => simp [F, h2]
      | some c =>
        have hF : F p = some c := by simp [F, hS, h2]
        have : w'.heap p = none := by
          apply Classical.byContradiction
          intro hn
          have := hA' p hn
          rw [hF] at this; cases this
        simp [hF, this, hS]
  rw [e, e'] at hrun
  exact hrun

/-- A call that obtained no memory, created no object and called no constructor of an element. -/
def Calm (w w' : World N) : Prop := w'.nAlloc = w.nAlloc ∧ w'.nCtor = w.nCtor ∧ w'.sp = w.sp

/-- Neither the objects to be created nor the memory that the allocator will offer are in use. -/
structure Unoffered (w : World N) : Prop where
  stk : ∀ i, w.sp ≤ i → w.heap (.stk i) = none
  dyn : ∀ j a, w.nAlloc ≤ j → w.env.addr j = some a → w.heap (.dyn a) = none

theorem OnlyAbout.calm {m : M (World N) α} {w w' : World N} {r : α} (h : OnlyAbout S w m)
    (hu : Unoffered w) (hr : Runs m { w with err := none } r w') (hq : Calm w w') :
    ∃ o : Deed N α, r = o.res ∧ w' = o.after S w ∧ (∀ p, o.cells p ≠ none → S p ∧ w.heap p ≠ none) ∧ w.nAlloc = o.nAlloc ∧ w.nCtor = o.nCtor ∧
      w.sp = o.sp ∧ ∀ w2, Sees S w w2 → Runs m { w2 with err := none } o.res (o.after S w2) := by
  obtain ⟨o, h1, h2, h3, h4⟩ := h
  obtain ⟨rfl, rfl⟩ := Runs.det hr (h4 w ⟨rfl, rfl, rfl, rfl, fun _ _ => rfl, hu.stk⟩ fun j a k1 _ k3 => .inl (hu.dyn j a k1 k3))
  obtain ⟨q1, q2, q3⟩ := hq
  simp only [Deed.after] at q1 q2 q3
  refine ⟨o, rfl, rfl, fun p hp => ?_, q1.symm, q2.symm, q3.symm, fun w2 hs => h4 w2 hs fun j a k1 k2 => ?_⟩
  · rcases h1 p hp with k | ⟨i, -, k1, k2⟩ | ⟨j, a, -, k1, k2, -⟩
    · exact k
    · simp only [Deed.after] at k2; omega
    · simp only [Deed.after] at k2; omega
  · rw [hs.allocs] at k1; omega

theorem Deed.sees {o : Deed N α} {w : World N} (hd : ∀ p, S p → ¬ T p) (hu : Unoffered w)
    (h1 : ∀ p, o.cells p ≠ none → S p ∧ w.heap p ≠ none) (h2 : w.nAlloc = o.nAlloc) (h3 : w.nCtor = o.nCtor) (h4 : w.sp = o.sp) :
    Sees T w (o.after S w) := by
  have key : ∀ p, ¬ S p → (o.after S w).heap p = w.heap p := by
    intro p hp
    simp only [Deed.after, hp, false_or]
    split
    · rename_i h0
      rw [h0]
      exact Classical.byContradiction fun hn => hp (h1 p hn).1
    · rfl
  refine ⟨rfl, h2.symm, h3.symm, h4.symm, fun p hp => key p fun hs => hd p hs hp, fun i hi => ?_⟩
  have h0 := hu.stk i (by simp only [Deed.after] at hi; omega)
  simp only [Deed.after, h0, or_true, if_true]
  exact Classical.byContradiction fun hn => (h1 _ hn).2 h0

/-- Calls that are matters of different cells and neither obtain memory nor create objects can be exchanged: whichever is made
first, both give the same results and report the same, and all cells have the same content in the end. -/
theorem OnlyAbout.commute {m : M (World N) α} {n : M (World N) β} {w w1 w2 : World N} {a : α} {b : β}
    (hm : OnlyAbout S w m) (hn : OnlyAbout T w n) (hd : ∀ p, S p → ¬ T p) (hu : Unoffered w)
    (r1 : Runs m { w with err := none } a w1) (q1 : Calm w w1) (r2 : Runs n { w with err := none } b w2) (q2 : Calm w w2) :
    ∃ w3 w4, Runs n { w1 with err := none } b w3 ∧ Runs m { w2 with err := none } a w4 ∧
      w3.err = w2.err ∧ w4.err = w1.err ∧ { w3 with err := none } = { w4 with err := none } := by
  obtain ⟨o, rfl, rfl, a1, a2, a3, a4, a5⟩ := hm.calm hu r1 q1
  obtain ⟨o', rfl, rfl, b1, b2, b3, b4, b5⟩ := hn.calm hu r2 q2
  refine ⟨_, _, b5 _ (o.sees hd hu a1 a2 a3 a4), a5 _ (o'.sees (fun p h h' => hd p h' h) hu b1 b2 b3 b4), rfl, rfl, ?_⟩
  simp only [Deed.after, World.mk.injEq, and_true, true_and]
  refine ⟨?_, by omega, by omega, by omega, by omega⟩
  funext p
  have c1 := a1 p
  have c2 := b1 p
  have c3 := hd p
  by_cases e1 : o.cells p = none <;> by_cases e2 : o'.cells p = none <;> by_cases e3 : w.heap p = none <;>
    by_cases e4 : S p <;> by_cases e5 : T p <;> simp_all

theorem OnlyAbout.exchange {m : M (World N) α} {n : M (World N) β} {w w1 w2 : World N} {a : α} {b : β}
    (hm : OnlyAbout S w m) (hn : OnlyAbout T w n) (hd : ∀ p, S p → ¬ T p) (hu : Unoffered w)
    (r1 : Runs m { w with err := none } a w1) (q1 : Calm w w1) (n1 : w1.err = none)
    (r2 : Runs n { w with err := none } b w2) (q2 : Calm w w2) (n2 : w2.err = none) :
    ∃ r1 r2 w1 w2 w', Runs m { w with err := none } r1 w1 ∧ Runs n w1 r2 w' ∧
      Runs n { w with err := none } r2 w2 ∧ Runs m w2 r1 w' ∧ w'.err = none := by
  obtain ⟨w3, w4, k3, k4, e3, e4, e⟩ := hm.commute hn hd hu r1 q1 r2 q2
  rw [n2] at e3
  rw [n1] at e4
  have i1 : { w1 with err := none } = w1 := by rw [← n1]
  have i2 : { w2 with err := none } = w2 := by rw [← n2]
  have i3 : { w3 with err := none } = w3 := by rw [← e3]
  have i4 : { w4 with err := none } = w4 := by rw [← e4]
  rw [i1] at k3
  rw [i2] at k4
  rw [i3, i4] at e
  subst e
  exact ⟨_, _, w1, w2, w3, r1, k3, r2, k4, e3⟩
end

end Nestl
